import Verif.HashConfig

/-!
# C100: what `hash_pair` tells about an instance

The second hash is the first one's state, xored with a constant of the number of words and of the position of the words, and mixed again.
-/

namespace HashModel

/-! ## The second hash is a function of the first -/

/-- Xor of the position constants `salt * const_b` of the words `off … off + n - 1` (hash.py:92-94). -/
def tag (off : Nat) : Nat → W
  | 0 => 0
  | n + 1 => (salt off * 0x85EBCA6B#32) ^^^ tag (off + 1) n

theorem lanes1_cons (seed : W) (off : Nat) (w : W) (ws : List W) :
    lanes1 seed off (w :: ws) = (avalanche32 (w ^^^ salt off ^^^ seed) ^^^ (salt off * 0x85EBCA6B#32)) :: lanes1 seed (off + 1) ws := rfl

theorem xor4 (a b c d : W) : a ^^^ b ^^^ (c ^^^ d) = (a ^^^ c) ^^^ (b ^^^ d) := by
  apply BitVec.eq_of_getElem_eq
  intro i hi
  simp only [BitVec.getElem_xor]
  cases a[i] <;> cases b[i] <;> cases c[i] <;> cases d[i] <;> rfl

theorem xorReduce_lanes1 (seed : W) : ∀ (ws : List W) (off : Nat),
    xorReduce (lanes1 seed off ws) = xorReduce (lanes seed off ws) ^^^ tag off ws.length
  | [], off => by simp [lanes1, lanes, tag, xorReduce]
  | w :: ws, off => by
    rw [lanes1_cons, lanes_cons, xorReduce_cons, xorReduce_cons, xorReduce_lanes1 seed ws (off + 1), List.length_cons, tag, xor4]

/-- The state that is mixed into the first hash. -/
def state (ws : List W) (seed : W) : W := xorReduce (lanes seed 0 ws) ^^^ BitVec.ofNat 32 (ws.length <<< 2) ^^^ seed

theorem hashFastPair_eq (ws : List W) (seed : W) (h : ws ≠ []) :
    hashFastPair ws seed = (avalanche32 (state ws seed), avalanche32 (state ws seed ^^^ (tag 0 ws.length ^^^ 0xC2B2AE35#32))) := by
  have h0 : ws.length ≠ 0 := fun h' => h (List.length_eq_zero_iff.1 h')
  unfold hashFastPair state
  rw [if_neg h0, xorReduce_lanes1]
  congr 2
  generalize xorReduce (lanes seed 0 ws) = a
  generalize tag 0 ws.length = b
  generalize BitVec.ofNat 32 (ws.length <<< 2) = c
  apply BitVec.eq_of_getElem_eq
  intro i hi
  simp only [BitVec.getElem_xor]
  cases a[i] <;> cases b[i] <;> cases c[i] <;> cases seed[i] <;> cases (0xC2B2AE35#32)[i] <;> rfl

/-! ## The two hashes differ -/

/-- `tag 0 n` modulo 1024. -/
def tagLow : Nat → Nat
  | 0 => 0
  | n + 1 => tagLow n ^^^ (n * 763 % 1024)

theorem tag_succ (n : Nat) : ∀ off, tag off (n + 1) = tag off n ^^^ (salt (off + n) * 0x85EBCA6B#32) := by
  induction n with
  | zero => intro off; simp [tag]
  | succ n ih =>
    intro off
    rw [tag, ih (off + 1), tag, BitVec.xor_assoc, show off + 1 + n = off + (n + 1) by omega]

theorem xor_mod (a b : Nat) : (a ^^^ b) % 1024 = a % 1024 ^^^ b % 1024 := by
  have := @Nat.xor_mod_two_pow a b 10
  simpa using this

theorem tag_low (n : Nat) : (tag 0 n).toNat % 1024 = tagLow n := by
  induction n with
  | zero => rfl
  | succ n ih =>
    rw [tag_succ, BitVec.toNat_xor, xor_mod, ih, tagLow, Nat.zero_add]
    congr 1
    unfold salt
    rw [BitVec.mul_assoc, show (0x9E3779B1#32 * 0x85EBCA6B#32 : W) = 0x91B086FB#32 by decide]
    rw [BitVec.toNat_mul, BitVec.toNat_ofNat, BitVec.toNat_ofNat]
    rw [Nat.mod_mod_of_dvd _ (by decide), Nat.mul_mod, Nat.mod_mod_of_dvd _ (by decide), show 0x91B086FB % 2 ^ 32 % 1024 = 763 by decide,
      Nat.mul_mod n 763]

/-- One pass over the first values of `tagLow`. -/
def scan : Nat → Nat × Bool
  | 0 => (0, true)
  | n + 1 => (fun p => (p.1 ^^^ (n * 763 % 1024), p.2 && (p.1 != 565))) (scan n)

theorem scan_spec (n : Nat) : (scan n).1 = tagLow n ∧ ((scan n).2 = true → ∀ m, m < n → tagLow m ≠ 565) := by
  induction n with
  | zero => exact ⟨rfl, fun _ m h => absurd h (by omega)⟩
  | succ n ih =>
    refine ⟨by rw [scan, tagLow, ← ih.1], fun h m hm => ?_⟩
    simp only [scan, Bool.and_eq_true, bne_iff_ne, ne_eq] at h
    by_cases e : m = n
    · rw [e, ← ih.1]; exact h.2
    · exact ih.2 h.1 m (by omega)

theorem scan_1024 : (scan 1024).1 = 0 ∧ (scan 1024).2 = true := by decide +kernel

theorem tagLow_shift (k : Nat) (h0 : tagLow k = 0) (hk : k % 1024 = 0) (n : Nat) : tagLow (n + k) = tagLow n := by
  induction n with
  | zero => rw [Nat.zero_add]; exact h0
  | succ n ih =>
    rw [show n + 1 + k = (n + k) + 1 by omega]
    show tagLow (n + k) ^^^ ((n + k) * 763 % 1024) = tagLow n ^^^ (n * 763 % 1024)
    rw [ih, Nat.add_mul, Nat.add_mod, Nat.mul_mod k, hk]
    simp

theorem tagLow_period (n : Nat) : tagLow (n + 1024) = tagLow n :=
  tagLow_shift 1024 ((scan_spec 1024).1 ▸ scan_1024.1) rfl n

theorem tagLow_mod (n : Nat) : tagLow n = tagLow (n % 1024) := by
  have : ∀ k m, tagLow (m + 1024 * k) = tagLow m := by
    intro k
    induction k with
    | zero => intro m; rfl
    | succ k ih => intro m; rw [show m + 1024 * (k + 1) = (m + 1024 * k) + 1024 by omega, tagLow_period, ih]
  have h := this (n / 1024) (n % 1024)
  rw [← h]
  congr 1
  omega

theorem tag_ne (n : Nat) : tag 0 n ≠ 0xC2B2AE35#32 := by
  intro h
  have h1 := tag_low n
  rw [h, tagLow_mod] at h1
  exact (scan_spec 1024).2 scan_1024.2 _ (Nat.mod_lt n (by decide)) (h1.symm.trans (by decide))

theorem xor_eq_zero {a b : W} (h : a ^^^ b = 0#32) : a = b := by
  apply xor_right_inj (c := b)
  rw [h, BitVec.xor_self]

theorem self_ne_xor {a b : W} (h : b ≠ 0#32) : a ≠ a ^^^ b := by
  intro e
  apply h
  apply xor_right_inj (c := a)
  rw [BitVec.xor_comm b a, ← e]; simp

theorem hashFastPair_ne (ws : List W) (seed : W) : (hashFastPair ws seed).1 ≠ (hashFastPair ws seed).2 := by
  by_cases h : ws = []
  · subst h
    intro e
    have e' := avalanche_inj e
    rw [BitVec.xor_comm seed, BitVec.xor_comm seed] at e'
    exact absurd (xor_right_inj e') (by decide)
  · rw [hashFastPair_eq ws seed h]
    intro e
    refine self_ne_xor ?_ (avalanche_inj e)
    intro h0
    exact tag_ne _ (xor_eq_zero h0)

theorem loop_empty (seed : W) : ∀ (ls : List (List W)), ls.flatten = [] → ls.foldl (streamLoopPair seed) (0, 0, 0) = (0, 0, 0)
  | [], _ => rfl
  | l :: ls, h => by
    simp only [List.flatten_cons, List.append_eq_nil_iff] at h
    rw [List.foldl_cons, h.1]
    exact loop_empty seed ls h.2

/-- `hash_pair` of an instance without words when streaming. -/
theorem hashPair_empty (m : Stream) (x : List Leaf) (seed : W) (h : uint32ed x = []) (hne : hashPair m x seed ≠ hashFastPair [] seed) :
    hashPair m x seed = (avalanche32 seed, avalanche32 (seed ^^^ 0xC2B2AE35#32)) := by
  unfold hashPair at hne ⊢
  by_cases hs : m.streams (x.map leafWords) = true
  · rw [if_pos hs] at hne ⊢
    unfold hashPairStreaming at hne ⊢
    by_cases h0 : (x.map leafWords).length = 0
    · rw [if_pos h0] at hne
      exact absurd rfl hne
    · rw [if_neg h0, loop_empty seed _ (by rw [flatten_leafWords]; exact h)]
      simp
  · rw [if_neg hs, h] at hne
    exact absurd rfl hne

/-- The cases of `hash_pair`. -/
theorem hashPair_cases (m : Stream) (x : List Leaf) (seed : W) : hashPair m x seed = hashFastPair (uint32ed x) seed ∨
    uint32ed x = [] ∧ hashPair m x seed = (avalanche32 seed, avalanche32 (seed ^^^ 0xC2B2AE35#32)) := by
  by_cases h : uint32ed x = []
  · by_cases h' : hashPair m x seed = hashFastPair [] seed
    · exact Or.inl (by rw [h', h])
    · exact Or.inr ⟨h, hashPair_empty m x seed h h'⟩
  · exact Or.inl (hash_entry_points_agree_partial m x seed (Or.inr h)).2.1

/-- **C100 (1).**  The two hashes of an instance always differ, for every class, instance, seed and streaming mode; likewise those of a sequence of words
(`hash_pair_with_uint32ed`, and `hash_pair` of packed instances). -/
theorem pair_differs (m : Stream) (x : List Leaf) (ws : List W) (seed : W) :
    (hashPair m x seed).1 ≠ (hashPair m x seed).2 ∧ (hashPairWithUint32ed x seed).1.1 ≠ (hashPairWithUint32ed x seed).1.2 ∧
    (hashFastPair ws seed).1 ≠ (hashFastPair ws seed).2 := by
  refine ⟨?_, hashFastPair_ne _ _, hashFastPair_ne _ _⟩
  rcases hashPair_cases m x seed with h | ⟨_, h⟩
  · rw [h]; exact hashFastPair_ne _ _
  · rw [h]
    intro e
    exact self_ne_xor (by decide) (avalanche_inj e)

/-! ## The second hash tells nothing new -/

theorem hashFastPair_iff {ws ws' : List W} (hl : ws.length = ws'.length) (seed : W) :
    (hashFastPair ws seed).1 = (hashFastPair ws' seed).1 ↔ (hashFastPair ws seed).2 = (hashFastPair ws' seed).2 := by
  by_cases h : ws = []
  · have h' : ws' = [] := List.length_eq_zero_iff.1 (by rw [← hl, h]; rfl)
    rw [h, h']
    exact ⟨fun _ => rfl, fun _ => rfl⟩
  · have h' : ws' ≠ [] := fun e => h (List.length_eq_zero_iff.1 (by rw [hl, e]; rfl))
    rw [hashFastPair_eq ws seed h, hashFastPair_eq ws' seed h', hl]
    constructor
    · intro e
      have := avalanche_inj e
      simp only [this]
    · intro e
      have := xor_right_inj (avalanche_inj e)
      simp only [this]

/-- The second hash from the first. -/
def secondOf (n : Nat) (seed h : W) : W :=
  if n = 0 then (if h = avalanche32 (seed ^^^ 0x9E3779B1#32) then avalanche32 (seed ^^^ 0x85EBCA6B#32) else avalanche32 (seed ^^^ 0xC2B2AE35#32))
  else avalanche32 (unavalanche32 h ^^^ (tag 0 n ^^^ 0xC2B2AE35#32))

theorem secondOf_spec (ws : List W) (seed : W) : (hashFastPair ws seed).2 = secondOf ws.length seed (hashFastPair ws seed).1 := by
  by_cases h : ws = []
  · subst h
    simp [secondOf, hashFastPair]
  · rw [hashFastPair_eq ws seed h]
    have h0 : ws.length ≠ 0 := fun e => h (List.length_eq_zero_iff.1 e)
    simp only [secondOf, if_neg h0, unavalanche_avalanche]

/-- **C100 (2).**  For instances of one class and one seed the second hash is a function of the first. -/
theorem second_hash_determined (layout : List (Kind × Nat)) (seed : W) :
    ∃ f : W → W, ∀ (m : Stream) (x : List Leaf), x.map Leaf.layout = layout → (hashPair m x seed).2 = f (hashPair m x seed).1 := by
  refine ⟨secondOf (layout.map layoutWords).sum seed, fun m x hx => ?_⟩
  have hl : (uint32ed x).length = (layout.map layoutWords).sum := by rw [uint32ed_length, hx]
  rw [← hl]
  rcases hashPair_cases m x seed with h | ⟨h0, h⟩
  · rw [h]; exact secondOf_spec _ _
  · rw [h, h0, secondOf, List.length_nil, if_pos rfl, if_neg]
    intro e
    exact self_ne_xor (by decide) (avalanche_inj e)

/-- **C100 (3).**  Two instances of one class have the same first hash iff they have the same second hash: the pair tells apart what one hash tells apart. -/
theorem pair_tells_what_one_tells (m : Stream) {x y : List Leaf} (hl : x.map Leaf.layout = y.map Leaf.layout) (seed : W) :
    (hashPair m x seed).1 = (hashPair m y seed).1 ↔ (hashPair m x seed).2 = (hashPair m y seed).2 := by
  have hlen : (uint32ed x).length = (uint32ed y).length := by rw [uint32ed_length, uint32ed_length, hl]
  by_cases hx : uint32ed x = []
  · have hy : uint32ed y = [] := List.length_eq_zero_iff.1 (by rw [← hlen, hx]; rfl)
    have : x = y := uint32ed_injective x y hl (by rw [hx, hy])
    rw [this]
    exact ⟨fun _ => rfl, fun _ => rfl⟩
  · have hy : uint32ed y ≠ [] := fun e => hx (List.length_eq_zero_iff.1 (by rw [hlen, e]; rfl))
    rw [(hash_entry_points_agree_partial m x seed (Or.inr hx)).2.1, (hash_entry_points_agree_partial m y seed (Or.inr hy)).2.1]
    exact hashFastPair_iff hlen seed

/-! ## What is told apart, and what is not -/

/-- **C100 (4).**  Changing one word changes both hashes. -/
theorem pair_detects_single_word (pre suf : List W) (w w' seed : W) (hne : w ≠ w') :
    (hashFastPair (pre ++ w :: suf) seed).1 ≠ (hashFastPair (pre ++ w' :: suf) seed).1 ∧
    (hashFastPair (pre ++ w :: suf) seed).2 ≠ (hashFastPair (pre ++ w' :: suf) seed).2 := by
  have h1 : (hashFastPair (pre ++ w :: suf) seed).1 ≠ (hashFastPair (pre ++ w' :: suf) seed).1 := by
    have := hash_detects_single_word pre suf w w' seed hne
    have hf : ∀ ws, hashFast ws seed = (hashFastPair ws seed).1 := by
      intro ws; unfold hashFast hashFastPair; split <;> rfl
    rwa [hf, hf] at this
  exact ⟨h1, fun h => h1 ((hashFastPair_iff (by simp) seed).2 h)⟩

theorem state_insert (pre suf : List W) (w seed : W) :
    state (pre ++ w :: suf) seed = avalanche32 (w ^^^ salt pre.length ^^^ seed) ^^^
      (xorReduce (lanes seed 0 pre) ^^^ xorReduce (lanes seed (pre.length + 1) suf) ^^^
        (BitVec.ofNat 32 ((pre.length + (suf.length + 1)) <<< 2) ^^^ seed)) := by
  unfold state
  rw [lanes_append, xorReduce_append, lanes_cons, xorReduce_cons, List.length_append, List.length_cons, Nat.zero_add]
  generalize avalanche32 _ = a
  generalize xorReduce (lanes seed 0 pre) = b
  generalize xorReduce (lanes seed (pre.length + 1) suf) = c
  generalize BitVec.ofNat 32 _ = d
  apply BitVec.eq_of_getElem_eq
  intro i hi
  simp only [BitVec.getElem_xor]
  cases a[i] <;> cases b[i] <;> cases c[i] <;> cases d[i] <;> cases seed[i] <;> rfl

/-- **C100 (5).**  Every first hash is reached by exactly one choice of any one word, the others being given. -/
theorem word_for_hash (pre suf : List W) (seed h : W) : ∃ w, (hashFastPair (pre ++ w :: suf) seed).1 = h ∧
    ∀ w', (hashFastPair (pre ++ w' :: suf) seed).1 = h → w' = w := by
  obtain ⟨c, hc⟩ : ∃ c, ∀ w, state (pre ++ w :: suf) seed = avalanche32 (w ^^^ salt pre.length ^^^ seed) ^^^ c :=
    ⟨_, fun w => state_insert pre suf w seed⟩
  have hx : ∀ a b : W, a ^^^ b ^^^ b = a := fun a b => by rw [BitVec.xor_assoc, BitVec.xor_self, BitVec.xor_zero]
  refine ⟨unavalanche32 (unavalanche32 h ^^^ c) ^^^ seed ^^^ salt pre.length, ?_, ?_⟩
  · rw [hashFastPair_eq _ _ (by simp), hc, hx, hx, avalanche_unavalanche, hx, avalanche_unavalanche]
  · intro w' hw'
    apply Classical.byContradiction
    intro hne
    refine (pair_detects_single_word pre suf w' _ seed hne).1 (hw'.trans ?_)
    rw [hashFastPair_eq _ _ (by simp), hc, hx, hx, avalanche_unavalanche, hx, avalanche_unavalanche]

/-- **C100 (6).**  A class with two 32-bit words: whatever one of them is changed to, exactly one value of the other gives an instance with the same two hashes. -/
theorem twin_exists (pre mid suf : List W) (u v u' seed : W) : ∃ v', hashFastPair (pre ++ u' :: (mid ++ v' :: suf)) seed = hashFastPair (pre ++ u :: (mid ++ v :: suf)) seed ∧
    ∀ v'', hashFastPair (pre ++ u' :: (mid ++ v'' :: suf)) seed = hashFastPair (pre ++ u :: (mid ++ v :: suf)) seed → v'' = v' := by
  have e : ∀ (a b : W), pre ++ a :: (mid ++ b :: suf) = (pre ++ a :: mid) ++ b :: suf := by simp
  obtain ⟨v', h1, h2⟩ := word_for_hash (pre ++ u' :: mid) suf seed (hashFastPair (pre ++ u :: (mid ++ v :: suf)) seed).1
  refine ⟨v', ?_, fun v'' h => h2 v'' (by rw [← e, h])⟩
  rw [← e] at h1
  exact Prod.ext h1 ((hashFastPair_iff (by simp) seed).1 h1)

/-- **C100, why it is partial.**  "Instances of one class with the same first hash differ in the second" is false, for every seed and mode. -/
theorem pair_tells_apart_false (m : Stream) (seed : W) : ¬ ∀ x y : List Leaf, x.map Leaf.layout = y.map Leaf.layout → x ≠ y → hashPair m x seed ≠ hashPair m y seed := by
  intro h
  obtain ⟨v', hv, _⟩ := twin_exists [] [] [] 0 0 1 seed
  refine h [.w32 [1, v']] [.w32 [0, 0]] rfl (by simp) ?_
  rw [(hash_entry_points_agree_partial m [.w32 [1, v']] seed (Or.inr (by simp [uint32ed, leafWords]))).2.1,
    (hash_entry_points_agree_partial m [.w32 [0, 0]] seed (Or.inr (by simp [uint32ed, leafWords]))).2.1]
  exact hv

/-! ## Hash tables -/

open Dedupe DedupeSpec

section Tables

variable {α : Type u}

/-- Words and hashes of items come from `hash_pair` (of at most one stream mode). -/
def Hashed (E : Enc α) (seed : W) : Prop :=
  ∀ x, ∃ ws : List W, E.words x = ws.map BitVec.toNat ∧
    (E.h1 x = (hashFastPair ws seed).1.toNat ∧ E.h2 x = (hashFastPair ws seed).2.toNat ∨
      ws = [] ∧ E.h1 x = (avalanche32 seed).toNat ∧ E.h2 x = (avalanche32 (seed ^^^ 0xC2B2AE35#32)).toNat)

theorem class_hashed (m : Stream) (layout : List (Kind × Nat)) (seed : W) : Hashed (classHasher m layout seed).toEnc seed := by
  intro x
  refine ⟨uint32ed x.1, rfl, ?_⟩
  show (hashPair m x.1 seed).1.toNat = _ ∧ (hashPair m x.1 seed).2.toNat = _ ∨ _ ∧ (hashPair m x.1 seed).1.toNat = _ ∧ (hashPair m x.1 seed).2.toNat = _
  rcases hashPair_cases m x.1 seed with h | ⟨h0, h⟩
  · rw [h]; exact Or.inl ⟨rfl, rfl⟩
  · rw [h]; exact Or.inr ⟨h0, rfl, rfl⟩

theorem item_hashed (C : ACls) (w : Way) (seed : W) : Hashed (itemHasher C w seed).toEnc seed := by
  intro x
  refine ⟨(itemView C w x.1 seed).uint32ed, rfl, ?_⟩
  cases w with
  | packed => exact Or.inl ⟨rfl, rfl⟩
  | raw m =>
    show (hashPair m (rawLeaves x.1) seed).1.toNat = _ ∧ (hashPair m (rawLeaves x.1) seed).2.toNat = _ ∨
      _ ∧ (hashPair m (rawLeaves x.1) seed).1.toNat = _ ∧ (hashPair m (rawLeaves x.1) seed).2.toNat = _
    rcases hashPair_cases m (rawLeaves x.1) seed with h | ⟨h0, h⟩
    · rw [h]; exact Or.inl ⟨rfl, rfl⟩
    · rw [h]; exact Or.inr ⟨h0, rfl, rfl⟩

variable {E : Enc α} {seed : W}

theorem Hashed.ne (h : Hashed E seed) (x : α) : E.h1 x ≠ E.h2 x := by
  obtain ⟨ws, _, ⟨h1, h2⟩ | ⟨_, h1, h2⟩⟩ := h x
  · rw [h1, h2]
    exact fun e => hashFastPair_ne ws seed (BitVec.eq_of_toNat_eq e)
  · rw [h1, h2]
    exact fun e => self_ne_xor (by decide) (avalanche_inj (BitVec.eq_of_toNat_eq e))

theorem Hashed.iff (h : Hashed E seed) (x y : α) : E.h1 x = E.h1 y ↔ E.h2 x = E.h2 y := by
  obtain ⟨ws, ex, hx⟩ := h x
  obtain ⟨ws', ey, hy⟩ := h y
  have hl : ws.length = ws'.length := by
    have := (E.words_length x).trans (E.words_length y).symm
    rw [ex, ey] at this
    simpa using this
  by_cases h0 : ws = []
  · have h0' : ws' = [] := List.length_eq_zero_iff.1 (by rw [← hl, h0]; rfl)
    have : x = y := E.words_inj _ _ (by rw [ex, ey, h0, h0'])
    rw [this]
    exact ⟨fun _ => rfl, fun _ => rfl⟩
  · have h0' : ws' ≠ [] := fun e => h0 (List.length_eq_zero_iff.1 (by rw [hl, e]; rfl))
    obtain ⟨h1, h2⟩ | ⟨e, _⟩ := hx
    · obtain ⟨h1', h2'⟩ | ⟨e, _⟩ := hy
      · rw [h1, h2, h1', h2']
        exact ⟨fun e => congrArg _ ((hashFastPair_iff hl seed).1 (BitVec.eq_of_toNat_eq e)),
          fun e => congrArg _ ((hashFastPair_iff hl seed).2 (BitVec.eq_of_toNat_eq e))⟩
      · exact absurd e h0'
    · exact absurd e h0

theorem Hashed.clean (h : Hashed E seed) (xs : List α) (filled : List Bool) : PairsClean E xs filled :=
  fun _ x _ _ e => h.ne x (e.1.trans e.2.symm)

/-- Items of at most one word have different hashes. -/
theorem Hashed.one_word (h : Hashed E seed) (hw : E.wc ≤ 1) {x y : α} (e : E.h1 x = E.h1 y) : x = y := by
  apply E.words_inj
  obtain ⟨ws, ex, hx⟩ := h x
  obtain ⟨ws', ey, hy⟩ := h y
  have lx := E.words_length x
  have ly := E.words_length y
  rw [ex, List.length_map] at lx
  rw [ey, List.length_map] at ly
  match ws, ws', lx, ly with
  | [], [], _, _ => rw [ex, ey]
  | [], _ :: _, lx, ly => simp at lx ly; omega
  | _ :: _, [], lx, ly => simp at lx ly; omega
  | _ :: _ :: _, _, lx, _ => simp at lx; omega
  | _, _ :: _ :: _, _, ly => simp at ly; omega
  | [a], [b], _, _ =>
    obtain ⟨h1, _⟩ | ⟨e, _⟩ := hx
    · obtain ⟨h1', _⟩ | ⟨e, _⟩ := hy
      · rw [h1, h1'] at e
        have hab : a = b := by
          apply Classical.byContradiction
          intro hne
          exact (pair_detects_single_word [] [] a b seed hne).1 (BitVec.eq_of_toNat_eq e)
        rw [ex, ey, hab]
      · cases e
    · cases e

/-- The items of filled lanes have different first hashes. -/
def Distinct (E : Enc α) (xs : List α) (filled : List Bool) : Prop :=
  OnFilled xs filled fun x => OnFilled xs filled fun y => E.h1 x = E.h1 y → x = y

theorem Hashed.distinct (h : Hashed E seed) (xs : List α) (filled : List Bool) : NoPairCollision E xs filled ↔ Distinct E xs filled :=
  ⟨fun hn i x hx hf j y hy hg e => hn i x hx hf j y hy hg e ((h.iff x y).1 e), fun hn i x hx hf j y hy hg e _ => hn i x hx hf j y hy hg e⟩

/-- The conditions of C23 for items hashed by `hash_pair`. -/
theorem Hashed.guard (h : Hashed E seed) (xs : List α) (filled : List Bool) :
    (Guard .approx E xs filled ↔ Distinct E xs filled) ∧
    (Guard .safe E xs filled ↔ AllFilled xs filled ∨ Distinct E xs filled ∨ WordsClean E xs filled ∧ SignaturesClean E xs filled) := by
  have hc := h.clean xs filled
  have hd := h.distinct xs filled
  constructor
  · exact ⟨fun hg => hd.1 hg.1, fun hn => ⟨hd.2 hn, Or.inr hc⟩⟩
  · constructor
    · rintro (ha | ⟨_, hn | hw⟩)
      · exact Or.inl ha
      · exact Or.inr (Or.inl (hd.1 hn))
      · exact Or.inr (Or.inr hw)
    · rintro (ha | hn | hw)
      · exact Or.inl ha
      · exact Or.inr ⟨hc, Or.inl (hd.2 hn)⟩
      · exact Or.inr ⟨hc, Or.inr hw⟩

end Tables

/-- **C100 (7).**  The hashes of the items of a table: the two always differ (so that no item has the pair given to unfilled lanes), one is as good as both, and
the conditions of C23 become: mode `approx` needs the items of the batch to have different first hashes; mode `safe` needs this, or all lanes filled, or that no item
has the words (or the signature) of an unfilled lane. -/
theorem class_table_hashes (m : Stream) (layout : List (Kind × Nat)) (seed : W) :
    let E := (classHasher m layout seed).toEnc
    (∀ x, E.h1 x ≠ E.h2 x) ∧ (∀ x y, E.h1 x = E.h1 y ↔ E.h2 x = E.h2 y) ∧
    ∀ xs filled, (Guard .approx E xs filled ↔ Distinct E xs filled) ∧
      (Guard .safe E xs filled ↔ AllFilled xs filled ∨ Distinct E xs filled ∨ WordsClean E xs filled ∧ SignaturesClean E xs filled) :=
  have h := class_hashed m layout seed
  ⟨h.ne, h.iff, h.guard⟩

/-- The same for items with an aggregate layout, hashed raw or packed. -/
theorem item_table_hashes (C : ACls) (w : Way) (seed : W) :
    let E := (itemHasher C w seed).toEnc
    (∀ x, E.h1 x ≠ E.h2 x) ∧ (∀ x y, E.h1 x = E.h1 y ↔ E.h2 x = E.h2 y) ∧
    ∀ xs filled, (Guard .approx E xs filled ↔ Distinct E xs filled) ∧
      (Guard .safe E xs filled ↔ AllFilled xs filled ∨ Distinct E xs filled ∨ WordsClean E xs filled ∧ SignaturesClean E xs filled) :=
  have h := item_hashed C w seed
  ⟨h.ne, h.iff, h.guard⟩

/-! ### Classes for which de-duplication is exact without conditions -/

/-- A leaf whose words have bits that are never set: booleans, or padding at the end. -/
def HasSlack : Kind × Nat → Prop
  | (.bool, n) => 0 < n
  | (.b8, n) => n % 4 ≠ 0
  | (.b16, n) => n % 2 ≠ 0
  | _ => False

theorem quads8_ones : ∀ k, quads8 (List.replicate (4 * k) 0xFF#8) = List.replicate k 0xFFFFFFFF#32
  | 0 => rfl
  | k + 1 => by
    rw [show 4 * (k + 1) = 4 * k + 1 + 1 + 1 + 1 by omega, List.replicate_succ, List.replicate_succ, List.replicate_succ, List.replicate_succ, quads8,
      quads8_ones k, List.replicate_succ]
    congr 1

theorem pairs16_ones : ∀ k, pairs16 (List.replicate (2 * k) 0xFFFF#16) = List.replicate k 0xFFFFFFFF#32
  | 0 => rfl
  | k + 1 => by
    rw [show 2 * (k + 1) = 2 * k + 1 + 1 by omega, List.replicate_succ, List.replicate_succ, pairs16, pairs16_ones k, List.replicate_succ]
    congr 1

theorem quads8_not_ones {l : List (BitVec 8)} (h4 : l.length % 4 = 0) {b : BitVec 8} (hb : b ∈ l) (hne : b ≠ 0xFF#8) (k : Nat) :
    quads8 l ≠ List.replicate k 0xFFFFFFFF#32 := by
  intro h
  have hk : k = l.length / 4 := by
    have := congrArg List.length h
    rw [quads8_length, List.length_replicate] at this
    exact this.symm
  rw [← quads8_ones k] at h
  have e := quads8_inj l _ (by rw [List.length_replicate]; omega) h4 h
  rw [e] at hb
  exact hne (List.eq_of_mem_replicate hb)

theorem pairs16_not_ones {l : List (BitVec 16)} (h2 : l.length % 2 = 0) {b : BitVec 16} (hb : b ∈ l) (hne : b ≠ 0xFFFF#16) (k : Nat) :
    pairs16 l ≠ List.replicate k 0xFFFFFFFF#32 := by
  intro h
  have hk : k = l.length / 2 := by
    have := congrArg List.length h
    rw [pairs16_length, List.length_replicate] at this
    exact this.symm
  rw [← pairs16_ones k] at h
  have e := pairs16_inj l _ (by rw [List.length_replicate]; omega) h2 h
  rw [e] at hb
  exact hne (List.eq_of_mem_replicate hb)

theorem leaf_not_ones (x : Leaf) (h : HasSlack x.layout) (k : Nat) : leafWords x ≠ List.replicate k 0xFFFFFFFF#32 := by
  cases x with
  | bool l =>
    have h : 0 < l.length := h
    obtain ⟨b, hb⟩ := List.exists_mem_of_length_pos h
    refine quads8_not_ones (by simp only [List.length_append, List.length_map, List.length_replicate]; omega)
      (b := if b then 1 else 0) (List.mem_append_left _ (List.mem_map.2 ⟨b, hb, rfl⟩)) ?_ k
    cases b <;> decide
  | w8 l =>
    have h : l.length % 4 ≠ 0 := h
    refine quads8_not_ones (by simp only [List.length_append, List.length_replicate]; omega) (b := 0)
      (List.mem_append_right _ (List.mem_replicate.2 ⟨by omega, rfl⟩)) (by decide) k
  | w16 l =>
    have h : l.length % 2 ≠ 0 := h
    refine pairs16_not_ones (by simp only [List.length_append, List.length_replicate]; omega) (b := 0)
      (List.mem_append_right _ (List.mem_replicate.2 ⟨by omega, rfl⟩)) (by decide) k
  | w32 l => exact h.elim
  | w64 l => exact h.elim

theorem sub_replicate {β : Type u} {a b : List β} {n : Nat} {v : β} (h : a ++ b = List.replicate n v) :
    (∃ k, a = List.replicate k v) ∧ ∃ k, b = List.replicate k v := by
  constructor
  · exact ⟨a.length, List.eq_replicate_iff.2 ⟨rfl, fun x hx => List.eq_of_mem_replicate (h ▸ List.mem_append_left _ hx)⟩⟩
  · exact ⟨b.length, List.eq_replicate_iff.2 ⟨rfl, fun x hx => List.eq_of_mem_replicate (h ▸ List.mem_append_right _ hx)⟩⟩

theorem words_not_ones : ∀ (x : List Leaf), (∃ p ∈ x.map Leaf.layout, HasSlack p) → ∀ k, uint32ed x ≠ List.replicate k 0xFFFFFFFF#32
  | [], ⟨_, hp, _⟩, _ => by simp at hp
  | l :: x, ⟨p, hp, hs⟩, k => by
    intro h
    have h' : leafWords l ++ uint32ed x = List.replicate k 0xFFFFFFFF#32 := by simpa [uint32ed] using h
    obtain ⟨⟨k1, e1⟩, k2, e2⟩ := sub_replicate h'
    rw [List.map_cons, List.mem_cons] at hp
    rcases hp with rfl | hp
    · exact leaf_not_ones l hs k1 e1
    · exact words_not_ones x ⟨p, hp, hs⟩ k2 e2

theorem class_words_clean (m : Stream) {layout : List (Kind × Nat)} (hs : ∃ p ∈ layout, HasSlack p) (seed : W) (xs : List (Inst layout)) (filled : List Bool) :
    WordsClean (classHasher m layout seed).toEnc xs filled := by
  intro _ x _ _ h
  have h' : (uint32ed x.1).map BitVec.toNat = List.replicate (layout.map layoutWords).sum Dedupe.sentinel := h
  refine words_not_ones x.1 (by rw [x.2]; exact hs) (layout.map layoutWords).sum ?_
  refine (List.map_inj_right fun a b hab => BitVec.eq_of_toNat_eq hab).1 (h'.trans ?_)
  rw [List.map_replicate]
  rfl

/-- `Guard` holds for every batch of a class of at most 8 words with a boolean field or padding (modes `safe` and `exact`), and of a class of at most one word (modes
`safe` and `approx`). -/
theorem class_guard (m : Stream) (layout : List (Kind × Nat)) (seed : W) (mode : Mode)
    (h : (∃ p ∈ layout, HasSlack p) ∧ (layout.map layoutWords).sum ≤ 8 ∧ mode ≠ .approx ∨ (layout.map layoutWords).sum ≤ 1 ∧ mode ≠ .exact)
    (xs : List (Inst layout)) (filled : List Bool) : Guard mode (classHasher m layout seed).toEnc xs filled := by
  have hh := class_hashed m layout seed
  obtain ⟨g1, g2⟩ := hh.guard xs filled
  rcases h with ⟨hs, h8, hm⟩ | ⟨h1, hm⟩
  · have hw := class_words_clean m hs seed xs filled
    have hsig : SignaturesClean (classHasher m layout seed).toEnc xs filled := by
      intro h
      have : 8 < (layout.map layoutWords).sum := h
      omega
    cases mode with
    | approx => exact absurd rfl hm
    | safe => exact g2.2 (Or.inr (Or.inr ⟨hw, hsig⟩))
    | exact => exact Or.inr hw
  · have hd : Distinct (classHasher m layout seed).toEnc xs filled := fun _ x _ _ _ y _ _ e => hh.one_word h1 e
    cases mode with
    | approx => exact g1.2 hd
    | safe => exact g2.2 (Or.inr (Or.inl hd))
    | exact => exact absurd rfl hm

/-- **C100 (8).**  For such classes the de-duplication of a batch is exact, for every batch, mask and key: every filled lane is represented by the best lane of its
item, and exactly these are selected. -/
theorem class_dedupe_exact {K : Type v} [KeyTop K] (m : Stream) (layout : List (Kind × Nat)) (seed : W) (mode : Mode)
    (h : (∃ p ∈ layout, HasSlack p) ∧ (layout.map layoutWords).sum ≤ 8 ∧ mode ≠ .approx ∨ (layout.map layoutWords).sum ≤ 1 ∧ mode ≠ .exact)
    (xs : List (Inst layout)) (filled : List Bool) (key : Option (List K)) (i : Nat) (hi : i < xs.length) :
    let r := dedupe mode (classHasher m layout seed).toEnc xs filled key
    (filled[i]? = some true → IsBest xs filled key i (r.2.getD i 0)) ∧ (r.1[i]? = some true ↔ filled[i]? = some true ∧ IsBest xs filled key i i) := by
  obtain ⟨hp, hs⟩ := dedupe_default_sorted (classHasher m layout seed).toEnc xs filled
  exact dedupe_exact_partial _ xs filled key ((class_guard m layout seed mode h xs filled).for key) hp hs i hi

/-- **C100 (9).**  ... and every filled lane of `parallel_insert` whose item is stored afterwards returns its index. -/
theorem class_index_exact {K : Type v} [KeyTop K] (m : Stream) (layout : List (Kind × Nat)) (seed : W) (mode : Mode)
    (h : (∃ p ∈ layout, HasSlack p) ∧ (layout.map layoutWords).sum ≤ 8 ∧ mode ≠ .approx ∨ (layout.map layoutWords).sum ≤ 1 ∧ mode ≠ .exact)
    {T : HashTable.Table (Inst layout)} (hr : HashTable.Reachable K (classHasher m layout seed) T) (be : HashTable.Backend)
    (xs : List (Inst layout)) (filled : List Bool) (key : Option (List K)) (l : Nat) (x : Inst layout) (hx : xs[l]? = some x) (hf : filled[l]? = some true)
    (hst : ∃ i, HashTable.Stored (HashTable.parallelInsert be mode (classHasher m layout seed) T xs filled key).table x i) :
    HashTable.Stored (HashTable.parallelInsert be mode (classHasher m layout seed) T xs filled key).table x
      ((HashTable.parallelInsert be mode (classHasher m layout seed) T xs filled key).idx.getD l 0) :=
  HashTable.parallel_insert_index_partial hr be xs filled key ((class_guard m layout seed mode h xs filled).for key) l x hx hf hst

/-- **C100 (10).**  Mode `approx` keeps at most one of the items of a batch with the same first hash; and an item of a class with two 32-bit words has such a twin for
every other value of its first word. -/
theorem approx_loses_twins {K : Type v} [KeyTop K] (m : Stream) (seed : W) :
    (∀ (layout : List (Kind × Nat)) (xs : List (Inst layout)) (filled : List Bool) (key : Option (List K)) (i j : Nat) (x y : Inst layout),
      xs[i]? = some x → xs[j]? = some y → (hashPair m x.1 seed).1 = (hashPair m y.1 seed).1 →
      (dedupe .approx (classHasher m layout seed).toEnc xs filled key).1[i]? = some true →
      (dedupe .approx (classHasher m layout seed).toEnc xs filled key).1[j]? = some true → i = j) ∧
    ∀ u v u' : W, ∃ v', (hashPair m [.w32 [u, v]] seed).1 = (hashPair m [.w32 [u', v']] seed).1 := by
  refine ⟨fun layout xs filled key i j x y hx hy he hi hj => ?_, fun u v u' => ?_⟩
  · have h1 : (classHasher m layout seed).toEnc.h1 x = (classHasher m layout seed).toEnc.h1 y := congrArg BitVec.toNat he
    exact approx_one_per_pair _ xs filled key hx hy hi hj h1 (((class_hashed m layout seed).iff x y).1 h1)
  · obtain ⟨v', hv, _⟩ := twin_exists [] [] [] u v u' seed
    have hh : ∀ a b : W, hashPair m [.w32 [a, b]] seed = hashFastPair [a, b] seed := fun a b =>
      (hash_entry_points_agree_partial m [.w32 [a, b]] seed (Or.inr (by simp [uint32ed, leafWords]))).2.1
    refine ⟨v', ?_⟩
    rw [hh, hh]
    exact congrArg Prod.fst hv.symm

/-- Non-vacuity: a class with a boolean and a class with padding, of several words; a one-word class; a twin of the pair (0, 0) for seed 0, found by the formula of
(5), and its second hash. -/
example : (∃ p ∈ [(Kind.b32, 2), (.bool, 3)], HasSlack p) ∧ ([(Kind.b32, 2), (Kind.bool, 3)].map layoutWords).sum = 3 ∧
    (∃ p ∈ [(Kind.b32, 4), (.b8, 5)], HasSlack p) ∧ ([(Kind.b8, 4)].map layoutWords).sum = 1 ∧
    hashFastPair [1, 2803402125] 0 = (3387419583, 3061526918) ∧ hashFastPair [0, 0] 0 = (3387419583, 3061526918) :=
  ⟨⟨(.bool, 3), by simp, show 0 < 3 by decide⟩, by decide, ⟨(.b8, 5), by simp, show 5 % 4 ≠ 0 by decide⟩, by decide, by decide +kernel, by decide +kernel⟩

end HashModel
