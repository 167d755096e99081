import Verif.DedupeLemmas

/-!
# C23: in-batch de-duplication

`IsBest` is the specification; it mentions only the items, the filled mask and the keys.
-/

namespace DedupeSpec

/-- Key of a lane; without `unique_key` all lanes are equally good. -/
def keyOf {K : Type v} [KeyTop K] (key : Option (List K)) (i : Nat) : K :=
  match key with
  | none => KeyPad.inf
  | some ks => ks.getD i KeyPad.inf

/-- Lane `j` is the filled lane holding the same item as lane `i` with the least key, lowest lane first
among equal keys. -/
def IsBest {α : Type u} {K : Type v} [KeyTop K] (xs : List α) (filled : List Bool) (key : Option (List K))
    (i j : Nat) : Prop :=
  j < xs.length ∧ filled[j]? = some true ∧ xs[j]? = xs[i]? ∧
  ∀ k, k < xs.length → filled[k]? = some true → xs[k]? = xs[i]? →
    KeyCmp.le (keyOf key j) (keyOf key k) = true ∧ (KeyCmp.le (keyOf key k) (keyOf key j) = true → j ≤ k)

end DedupeSpec

namespace Dedupe

open SortGroup DedupeSpec

variable {α : Type u} {K : Type v} [KeyTop K]

/-- How items are encoded and hashed: `uint32ed` words (always `wc` of them, injective: C32) and the two
hash functions, which are arbitrary. -/
structure Enc (α : Type u) where
  wc : Nat
  words : α → List Nat
  h1 : α → Nat
  h2 : α → Nat
  words_length : ∀ x, (words x).length = wc
  words_inj : ∀ x y, words x = words y → x = y

/-- De-duplication of a batch of items, as called by `parallel_insert` (insert.py:396-437). -/
def dedupe (mode : Mode) (E : Enc α) (xs : List α) (filled : List Bool) (key : Option (List K)) :
    List Bool × List Nat :=
  dedupePairs mode xs.length E.wc (xs.map E.h1) (xs.map E.h2) (xs.map E.words) filled key

/-- Every lane of the batch is filled. -/
def AllFilled (xs : List α) (filled : List Bool) : Prop := ∀ i, i < xs.length → filled[i]? = some true

/-- The items in filled lanes satisfy `P`. -/
def OnFilled (xs : List α) (filled : List Bool) (P : α → Prop) : Prop :=
  ∀ (i : Nat) (x : α), xs[i]? = some x → filled[i]? = some true → P x

/-- Different items in filled lanes differ in one of the two hashes. -/
def NoPairCollision (E : Enc α) (xs : List α) (filled : List Bool) : Prop :=
  OnFilled xs filled fun x => OnFilled xs filled fun y => E.h1 x = E.h1 y → E.h2 x = E.h2 y → x = y

/-- No filled lane has the hash pair given to unfilled lanes. -/
def PairsClean (E : Enc α) (xs : List α) (filled : List Bool) : Prop :=
  OnFilled xs filled fun x => ¬ (E.h1 x = sentinel ∧ E.h2 x = sentinel)

/-- No filled lane has the words given to unfilled lanes. -/
def WordsClean (E : Enc α) (xs : List α) (filled : List Bool) : Prop :=
  OnFilled xs filled fun x => E.words x ≠ List.replicate E.wc sentinel

/-- No filled lane has the signature given to unfilled lanes; signatures are used for items of more than 8 words. -/
def SignaturesClean (E : Enc α) (xs : List α) (filled : List Bool) : Prop :=
  8 < E.wc → OnFilled xs filled fun x => signature (E.words x) ≠ (sentinel, sentinel, sentinel, sentinel)

/-- The inputs on which the property holds.  Unfilled lanes are given the sort key `0xFFFFFFFF…`: every lane is filled, or the filled lanes avoid it.  Mode `approx`
does not look at the items and needs different items to have different hash pairs; mode `safe` looks at the words only after a collision of hash pairs. -/
def Guard (mode : Mode) (E : Enc α) (xs : List α) (filled : List Bool) : Prop :=
  match mode with
  | .exact => AllFilled xs filled ∨ WordsClean E xs filled
  | .safe => AllFilled xs filled ∨ PairsClean E xs filled ∧ (NoPairCollision E xs filled ∨ WordsClean E xs filled ∧ SignaturesClean E xs filled)
  | .approx => NoPairCollision E xs filled ∧ (AllFilled xs filled ∨ PairsClean E xs filled)

/-- No filled lane has the key `+inf` given to unfilled lanes (always so without keys). -/
def KeysFinite (xs : List α) (filled : List Bool) (key : Option (List K)) : Prop :=
  ∀ ks, key = some ks → ∀ i, i < xs.length → filled[i]? = some true → KeyCmp.le KeyPad.inf (ks.getD i KeyPad.inf) = false

/-- `Guard` for given keys.  An unfilled lane in the group of an item does no harm as long as the keys of the filled lanes are finite: in mode `exact` nothing else is
needed, in mode `safe` what is needed to find a collision of hash pairs (and of signatures, for items of more than 8 words). -/
def GuardFor (mode : Mode) (E : Enc α) (xs : List α) (filled : List Bool) (key : Option (List K)) : Prop :=
  match mode with
  | .exact => AllFilled xs filled ∨ KeysFinite xs filled key ∨ WordsClean E xs filled
  | .safe => AllFilled xs filled ∨ (KeysFinite xs filled key ∨ PairsClean E xs filled) ∧ NoPairCollision E xs filled ∨
      PairsClean E xs filled ∧ (KeysFinite xs filled key ∨ WordsClean E xs filled) ∧ SignaturesClean E xs filled
  | .approx => NoPairCollision E xs filled ∧ (AllFilled xs filled ∨ KeysFinite xs filled key ∨ PairsClean E xs filled)

theorem Guard.for {mode : Mode} {E : Enc α} {xs : List α} {filled : List Bool} (hg : Guard mode E xs filled) (key : Option (List K)) :
    GuardFor mode E xs filled key := by
  cases mode with
  | exact => exact hg.imp_right Or.inr
  | approx => exact ⟨hg.1, hg.2.imp_right Or.inr⟩
  | safe =>
    rcases hg with h | ⟨h, hn | ⟨h1, h2⟩⟩
    · exact Or.inl h
    · exact Or.inr (Or.inl ⟨Or.inr h, hn⟩)
    · exact Or.inr (Or.inr ⟨h, Or.inr h1, h2⟩)

theorem exists_min_key (n : Nat) (P : Nat → Prop) (f : Nat → K) (h : ∃ i, i < n ∧ P i) :
    ∃ j, j < n ∧ P j ∧ ∀ k, k < n → P k → KeyCmp.le (f j) (f k) = true := by
  induction n with
  | zero => obtain ⟨i, hi, _⟩ := h; omega
  | succ n ih =>
    by_cases h' : ∃ i, i < n ∧ P i
    · obtain ⟨j, hj, hpj, hm⟩ := ih h'
      by_cases hn : P n
      · by_cases hle : KeyCmp.le (f j) (f n) = true
        · refine ⟨j, by omega, hpj, fun k hk hpk => ?_⟩
          by_cases e : k = n
          · subst e; exact hle
          · exact hm k (by omega) hpk
        · have hle' : KeyCmp.le (f n) (f j) = true := KeyLE.le_of_not_le (by simpa using hle)
          refine ⟨n, by omega, hn, fun k hk hpk => ?_⟩
          by_cases e : k = n
          · subst e; exact KeyLE.refl _
          · exact KeyLE.trans _ _ _ hle' (hm k (by omega) hpk)
      · refine ⟨j, by omega, hpj, fun k hk hpk => ?_⟩
        by_cases e : k = n
        · subst e; exact absurd hpk hn
        · exact hm k (by omega) hpk
    · obtain ⟨i, hi, hpi⟩ := h
      have e : i = n := by
        apply Classical.byContradiction; intro hne; exact h' ⟨i, by omega, hpi⟩
      subst e
      refine ⟨i, hi, hpi, fun k hk hpk => ?_⟩
      by_cases e : k = i
      · subst e; exact KeyLE.refl _
      · exact absurd ⟨k, by omega, hpk⟩ h'

/-- The result `r` is right at lane `i`. -/
def ExactAt (xs : List α) (filled : List Bool) (key : Option (List K)) (i : Nat) (r : List Bool × List Nat) : Prop :=
  (filled.getD i false = true → IsBest xs filled key i (r.2.getD i 0)) ∧
  (r.1.getD i false = true ↔ filled.getD i false = true ∧ IsBest xs filled key i i)

theorem filled_iff {filled : List Bool} {i : Nat} : filled.getD i false = true ↔ filled[i]? = some true := by
  rw [List.getD_eq_getElem?_getD]; cases filled[i]? <;> simp

/-- If the sort groups the filled lanes exactly by item, and never mixes in unfilled lanes or the keys are finite, the result is
exact. -/
theorem finish_exact {xs : List α} {filled : List Bool} {key : Option (List K)}
    {les : List (Nat → Nat → Bool)} (hles : ∀ le ∈ les, IsOrder le) {R : Nat → Nat → Prop}
    {sorted : List Nat} (hp : sorted.Perm (List.range xs.length)) (hs : sorted.Pairwise (Lex R les))
    (hmix : (∀ i j, i < xs.length → j < xs.length → filled.getD i false = true → sameAll les i j = true → filled.getD j false = true) ∨
      KeysFinite xs filled key)
    (hA : ∀ i j, i < xs.length → j < xs.length → filled.getD i false = true → filled.getD j false = true → sameAll les i j = true →
      xs[j]? = xs[i]?)
    (hB : ∀ i j, i < xs.length → j < xs.length → filled.getD i false = true → filled.getD j false = true →
      xs[j]? = xs[i]? → sameAll les i j = true) (i : Nat) (hi : i < xs.length) :
    ExactAt xs filled key i (finish xs.length filled key sorted (groupStarts (sameAll les) sorted)) := by
  generalize hr : finish xs.length filled key sorted (groupStarts (sameAll les) sorted) = r
  obtain ⟨⟨m, m1, m2, m3⟩, h2⟩ := finish_sort_spec (filled := filled) (key := key) hles hp hs i hi
  rw [hr] at m3 h2
  have best : filled.getD i false = true → IsBest xs filled key i (r.2.getD i 0) := by
    intro hf
    have hii : sameAll les i i = true := hB i i hi hi hf hf rfl
    have hc : ∃ j, j < xs.length ∧ sameAll les i j = true ∧
        Cand xs.length filled key (fun a b => sameAll les a b = true) j := by
      cases key with
      | none => exact ⟨i, hi, hii, hf⟩
      | some ks =>
        obtain ⟨j, hj, hpj, hm⟩ := exists_min_key xs.length (fun j => sameAll les i j = true)
          (mk filled ks) ⟨i, hi, hii⟩
        exact ⟨j, hj, hpj, fun k hk hjk => hm k hk (sameAll_trans hles hpj hjk)⟩
    obtain ⟨c, hc1, hc2, hc3⟩ := hc
    have hm : m < xs.length ∧ sameAll les i m = true ∧
        Cand xs.length filled key (fun a b => sameAll les a b = true) m := by
      rcases m1 with m1 | m1
      · have := m2 c hc1 hc2 hc3; omega
      · exact m1
    have e : r.2.getD i 0 = m := by
      rw [m3, if_pos hf, if_neg (by omega)]
    rw [e]
    have hfm' : filled.getD m false = true := by
      rcases hmix with hmix | hfin
      · exact hmix i m hi hm.1 hf hm.2.1
      · cases key with
        | none => exact hm.2.2
        | some ks =>
          cases hfm : filled.getD m false with
          | true => rfl
          | false =>
            have h1 := hm.2.2 i hi (sameAll_symm hm.2.1)
            simp only [mk, hfm, hf, if_true, Bool.false_eq_true, if_false] at h1
            rw [hfin ks rfl i hi (filled_iff.1 hf)] at h1
            cases h1
    have hfm := And.intro hfm' (hA i m hi hm.1 hf hfm' hm.2.1)
    refine ⟨hm.1, filled_iff.1 hfm.1, hfm.2, ?_⟩
    intro k hk hfk hxk
    have hik : sameAll les i k = true := hB i k hi hk hf (filled_iff.2 hfk) hxk
    cases key with
    | none => exact ⟨KeyLE.refl _, fun _ => m2 k hk hik (filled_iff.2 hfk)⟩
    | some ks =>
      have hmk : ∀ j, filled.getD j false = true → mk filled ks j = keyOf (some ks) j := by
        intro j hj; simp only [mk, hj, if_true, keyOf]
      have h1 : KeyCmp.le (keyOf (some ks) m) (keyOf (some ks) k) = true := by
        rw [← hmk m hfm.1, ← hmk k (filled_iff.2 hfk)]
        exact hm.2.2 k hk (sameAll_trans hles (sameAll_symm hm.2.1) hik)
      refine ⟨h1, fun h => m2 k hk hik ?_⟩
      intro l hl hkl
      refine KeyLE.trans _ (mk filled ks m) _ ?_
        (hm.2.2 l hl (sameAll_trans hles (sameAll_trans hles (sameAll_symm hm.2.1) hik) hkl))
      rw [hmk m hfm.1, hmk k (filled_iff.2 hfk)]; exact h
  refine ⟨best, ?_⟩
  have h2' : r.1.getD i false = (filled.getD i false && (i == r.2.getD i 0)) := h2
  rw [h2']
  simp only [Bool.and_eq_true, beq_iff_eq]
  constructor
  · rintro ⟨hf, he⟩
    refine ⟨hf, ?_⟩
    have := best hf
    rw [← he] at this
    exact this
  · rintro ⟨hf, hb⟩
    refine ⟨hf, ?_⟩
    obtain ⟨b1, b2, b3, b4⟩ := best hf
    obtain ⟨c1, c2, c3, c4⟩ := hb
    have d1 := c4 _ b1 b2 b3
    have d2 := b4 i c1 c2 c3
    have := d1.2 d2.1
    have := d2.2 d1.1
    omega

theorem masked_filled {filled : List Bool} {keys : List Nat} {i : Nat} (h : filled.getD i false = true) :
    masked filled keys i = keys.getD i 0 := by simp only [masked, h, if_true]

theorem masked_unfilled {filled : List Bool} {keys : List Nat} {i : Nat} (h : filled.getD i false = false) :
    masked filled keys i = sentinel := by simp only [masked, h]; rfl

theorem map_getD {β : Type v} {xs : List α} {f : α → β} {i : Nat} {x : α} (d : β) (h : xs[i]? = some x) :
    (xs.map f).getD i d = f x := by
  rw [List.getD_eq_getElem?_getD, List.getElem?_map, h]; rfl

/-- Lanes grouped by a family of functions of the item. -/
theorem same_cols {xs : List α} {filled : List Bool} {ι : Type} (fs : List ι) (f : ι → α → Nat)
    {i j : Nat} {x y : α} (hx : xs[i]? = some x) (hy : xs[j]? = some y) :
    (filled.getD i false = true → filled.getD j false = true →
      (sameAll (fs.map fun c => leBy (masked filled (xs.map (f c)))) i j = true ↔ ∀ c ∈ fs, f c x = f c y)) ∧
    (filled.getD i false = true → filled.getD j false = false →
      (sameAll (fs.map fun c => leBy (masked filled (xs.map (f c)))) i j = true → ∀ c ∈ fs, f c x = sentinel)) := by
  constructor
  · intro hi hj
    rw [sameAll_iff]
    simp only [List.mem_map, forall_exists_index, and_imp, forall_apply_eq_imp_iff₂]
    constructor
    · intro h c hc
      have := leBy_same.1 (h c hc)
      rwa [masked_filled hi, masked_filled hj, map_getD _ hx, map_getD _ hy] at this
    · intro h c hc
      apply leBy_same.2
      rw [masked_filled hi, masked_filled hj, map_getD _ hx, map_getD _ hy]
      exact h c hc
  · intro hi hj
    rw [sameAll_iff]
    simp only [List.mem_map, forall_exists_index, and_imp, forall_apply_eq_imp_iff₂]
    intro h c hc
    have := leBy_same.1 (h c hc)
    rwa [masked_filled hi, masked_unfilled hj, map_getD _ hx] at this

theorem range_pairwise_true (n : Nat) : (List.range n).Pairwise (fun _ _ => True) :=
  List.pairwise_of_forall (by simp)

theorem getD_ext {l m : List Nat} (h : l.length = m.length) (he : ∀ c, c < l.length → l.getD c 0 = m.getD c 0) :
    l = m := by
  apply List.ext_getElem h
  intro c h1 h2
  have := he c h1
  simpa [List.getD_eq_getElem?_getD, List.getElem?_eq_getElem h1, List.getElem?_eq_getElem h2] using this

theorem rowLes_eq (filled : List Bool) (xs : List α) (E : Enc α) : rowLes filled (xs.map E.words) E.wc =
    (List.range E.wc).map fun c => leBy (masked filled (xs.map fun x => (E.words x).getD c 0)) := by
  simp [rowLes, Function.comp_def]

theorem rowLes_isOrder {filled : List Bool} {rows : List (List Nat)} {wc : Nat} :
    ∀ le ∈ rowLes filled rows wc, IsOrder le := by
  intro le hle
  simp only [rowLes, List.mem_map] at hle
  obtain ⟨c, _, rfl⟩ := hle
  exact leBy_isOrder _

theorem sigLes_isOrder {filled : List Bool} {rows : List (List Nat)} :
    ∀ le ∈ sigLes filled rows, IsOrder le := by
  intro le hle
  simp only [sigLes, List.mem_cons, List.not_mem_nil, or_false] at hle
  rcases hle with rfl | rfl | rfl | rfl <;> exact leBy_isOrder _

theorem pairLes_isOrder {filled : List Bool} {h1 h2 : List Nat} : ∀ le ∈ pairLes filled h1 h2, IsOrder le := by
  intro le hle
  simp only [pairLes, List.mem_cons, List.not_mem_nil, or_false] at hle
  rcases hle with rfl | rfl <;> exact leBy_isOrder _

/-- The four signature words. -/
def sigWord (c : Fin 4) (r : List Nat) : Nat :=
  match c with
  | 0 => (signature r).1
  | 1 => (signature r).2.1
  | 2 => (signature r).2.2.1
  | 3 => (signature r).2.2.2

theorem sigLes_eq (filled : List Bool) (xs : List α) (E : Enc α) : sigLes filled (xs.map E.words) =
    [0, 1, 2, 3].map fun c => leBy (masked filled (xs.map fun x => sigWord c (E.words x))) := by
  simp [sigLes, sigWord, Function.comp_def]

/-- The two hash words. -/
def pairWord (E : Enc α) (c : Bool) (x : α) : Nat := if c then E.h2 x else E.h1 x

theorem pairLes_eq (filled : List Bool) (xs : List α) (E : Enc α) :
    pairLes filled (xs.map E.h1) (xs.map E.h2) =
    [false, true].map fun c => leBy (masked filled (xs.map (pairWord E c))) := rfl

theorem getElem?_some_of_lt {xs : List α} {i : Nat} (h : i < xs.length) : ∃ x, xs[i]? = some x :=
  ⟨xs[i], List.getElem?_eq_getElem h⟩

/-- No group mixes filled and unfilled lanes, provided no filled lane has the all-sentinel key. -/
theorem no_mix {xs : List α} {filled : List Bool} {ι : Type} (fs : List ι) (f : ι → α → Nat)
    (hg : (∀ i, i < xs.length → filled[i]? = some true) ∨
      ∀ (i : Nat) (x : α), xs[i]? = some x → filled[i]? = some true → ¬ ∀ c ∈ fs, f c x = sentinel)
    {i j : Nat} (hi : i < xs.length) (hj : j < xs.length) (hf : filled.getD i false = true)
    (hs : sameAll (fs.map fun c => leBy (masked filled (xs.map (f c)))) i j = true) :
    filled.getD j false = true := by
  obtain ⟨x, hx⟩ := getElem?_some_of_lt hi
  obtain ⟨y, hy⟩ := getElem?_some_of_lt hj
  rcases hg with hg | hg
  · exact filled_iff.2 (hg j hj)
  · cases hfj : filled.getD j false with
    | true => rfl
    | false =>
      exact absurd ((same_cols fs f hx hy).2 hf hfj hs) (hg i x hx (filled_iff.1 hf))

/-- Two adjacent entries of a collision. -/
theorem collision_true {filled : List Bool} {rows : List (List Nat)} {same : Nat → Nat → Bool} {sorted : List Nat}
    (h : collision filled rows same sorted = true) : ∃ a ∈ sorted, ∃ b ∈ sorted, same a b = true ∧ filled.getD a false = true ∧
      filled.getD b false = true ∧ rows.getD a [] ≠ rows.getD b [] := by
  unfold collision at h
  rw [List.any_eq_true] at h
  obtain ⟨v, hv, hvt⟩ := h
  obtain ⟨p, hp⟩ := List.getElem?_of_mem hv
  rw [List.getElem?_zipWith, List.getElem?_tail] at hp
  cases ha : sorted[p]? with
  | none => rw [ha] at hp; simp at hp
  | some a =>
    cases hb : sorted[p + 1]? with
    | none => rw [ha, hb] at hp; simp at hp
    | some b =>
      rw [ha, hb] at hp
      simp only [Option.some.injEq] at hp
      rw [← hp] at hvt
      simp only [id_eq, Bool.and_eq_true, Bool.not_eq_true', beq_eq_false_iff_ne] at hvt
      exact ⟨a, List.mem_of_getElem? ha, b, List.mem_of_getElem? hb, hvt.1.1.1, hvt.1.1.2, hvt.1.2, hvt.2⟩

/-- Filled lanes grouped by their hash pairs hold equal items, if hash pairs do not collide. -/
theorem pair_items {E : Enc α} {xs : List α} {filled : List Bool} (hn : NoPairCollision E xs filled) {a b : Nat} (ha : a < xs.length) (hb : b < xs.length)
    (hfa : filled.getD a false = true) (hfb : filled.getD b false = true)
    (hs : sameAll (pairLes filled (xs.map E.h1) (xs.map E.h2)) a b = true) : xs[b]? = xs[a]? := by
  obtain ⟨x, hx⟩ := getElem?_some_of_lt ha
  obtain ⟨y, hy⟩ := getElem?_some_of_lt hb
  rw [pairLes_eq] at hs
  have := ((same_cols _ _ hx hy).1 hfa hfb).1 hs
  rw [hx, hy, hn a x hx (filled_iff.1 hfa) b y hy (filled_iff.1 hfb) (this false (by simp)) (this true (by simp))]

/-- Without a collision of hash pairs the check finds none. -/
theorem no_collision {E : Enc α} {xs : List α} {filled : List Bool} (hn : NoPairCollision E xs filled) {sorted : List Nat}
    (hp : sorted.Perm (List.range xs.length)) :
    collision filled (xs.map E.words) (sameAll (pairLes filled (xs.map E.h1) (xs.map E.h2))) sorted = false := by
  cases h : collision filled (xs.map E.words) (sameAll (pairLes filled (xs.map E.h1) (xs.map E.h2))) sorted with
  | false => rfl
  | true =>
    obtain ⟨a, ha, b, hb, hs, hfa, hfb, hne⟩ := collision_true h
    have hal := List.mem_range.1 (hp.mem_iff.1 ha)
    have hbl := List.mem_range.1 (hp.mem_iff.1 hb)
    have e := pair_items hn hal hbl hfa hfb hs
    obtain ⟨x, hx⟩ := getElem?_some_of_lt hal
    rw [hx] at e
    rw [map_getD _ hx, map_getD _ e] at hne
    exact absurd rfl hne

/-- What `dedupeRows` asks of the filled lanes, whatever the keys. -/
def RowsClean (mode : Mode) (E : Enc α) (xs : List α) (filled : List Bool) : Prop :=
  WordsClean E xs filled ∧ (mode = .exact ∨ SignaturesClean E xs filled)

/-- What `dedupeRows` asks of the filled lanes. -/
def RowsCleanFor (mode : Mode) (E : Enc α) (xs : List α) (filled : List Bool) (key : Option (List K)) : Prop :=
  (KeysFinite xs filled key ∨ WordsClean E xs filled) ∧ (mode = .exact ∨ SignaturesClean E xs filled)

theorem dedupeRows_exact {mode : Mode} (hm : mode ≠ .approx) {E : Enc α} {xs : List α} {filled : List Bool}
    (key : Option (List K)) (hg : AllFilled xs filled ∨ RowsCleanFor mode E xs filled key) (i : Nat) (hi : i < xs.length) :
    ExactAt xs filled key i (dedupeRows mode xs.length E.wc (xs.map E.words) filled key) := by
  have full : ExactAt xs filled key i (finish xs.length filled key
        (sortPasses (rowLes filled (xs.map E.words) E.wc) (List.range xs.length))
        (groupStarts (sameAll (rowLes filled (xs.map E.words) E.wc))
          (sortPasses (rowLes filled (xs.map E.words) E.wc) (List.range xs.length)))) := by
    refine finish_exact rowLes_isOrder (sortPasses_perm _ _)
      (sortPasses_lex (R := fun _ _ => True) _ _ (range_pairwise_true _) rowLes_isOrder) ?_ ?_ ?_ i hi
    · have hg' : KeysFinite xs filled key ∨ (AllFilled xs filled ∨ WordsClean E xs filled) := by
        rcases hg with h | ⟨h | h, _⟩
        · exact Or.inr (Or.inl h)
        · exact Or.inl h
        · exact Or.inr (Or.inr h)
      refine hg'.symm.imp_left fun hg' a b ha hb hf hs => ?_
      rw [rowLes_eq] at hs
      exact no_mix _ _ (hg'.imp_right (fun h i x hx hf hc => h i x hx hf (by
        apply getD_ext (by simp [E.words_length])
        intro c hcl
        rw [E.words_length] at hcl
        rw [hc c (by simpa using hcl)]
        simp [List.getD_eq_getElem?_getD, hcl]))) ha hb hf hs
    · intro a b ha hb hf hfb hs
      obtain ⟨x, hx⟩ := getElem?_some_of_lt ha
      obtain ⟨y, hy⟩ := getElem?_some_of_lt hb
      rw [rowLes_eq] at hs
      have := ((same_cols _ _ hx hy).1 hf hfb).1 hs
      rw [hx, hy]
      congr 1
      symm
      apply E.words_inj
      apply getD_ext (by simp [E.words_length])
      intro c hc
      rw [E.words_length] at hc
      exact this c (by simpa using hc)
    · intro a b ha hb hfa hfb he
      obtain ⟨x, hx⟩ := getElem?_some_of_lt ha
      rw [rowLes_eq]
      rw [hx] at he
      exact ((same_cols _ _ hx he).1 hfa hfb).2 (fun _ _ => rfl)
  unfold dedupeRows
  by_cases h1 : mode = .exact ∨ E.wc ≤ 8
  · simp only [if_pos h1]; exact full
  · simp only [if_neg h1]
    by_cases h2 : mode = .safe ∧ collision filled (xs.map E.words) (sameAll (sigLes filled (xs.map E.words)))
        (sortPasses (sigLes filled (xs.map E.words)) (List.range xs.length)) = true
    · simp only [if_pos h2]; exact full
    · simp only [if_neg h2]
      have hsafe : mode = .safe := by
        cases mode
        · exact absurd rfl hm
        · rfl
        · exact absurd (Or.inl rfl) h1
      have hc : collision filled (xs.map E.words) (sameAll (sigLes filled (xs.map E.words)))
        (sortPasses (sigLes filled (xs.map E.words)) (List.range xs.length)) = false := by
        simpa [hsafe] using h2
      have hperm := sortPasses_perm (sigLes filled (xs.map E.words)) (List.range xs.length)
      have hlex := sortPasses_lex (R := fun _ _ => True) (sigLes filled (xs.map E.words))
        (List.range xs.length) (range_pairwise_true _) sigLes_isOrder
      have hmix : ∀ i j, i < xs.length → j < xs.length → filled.getD i false = true →
          sameAll (sigLes filled (xs.map E.words)) i j = true → filled.getD j false = true := by
        intro a b ha hb hf hs
        rw [sigLes_eq] at hs
        refine no_mix _ (fun c x => sigWord c (E.words x))
          (hg.imp_right (fun h i x hx hf hc => h.2.resolve_left (fun e => h1 (Or.inl e)) (Nat.lt_of_not_le fun e => h1 (Or.inr e)) i x hx hf ?_)) ha hb hf hs
        have c0 := hc 0 (by simp); have c1 := hc 1 (by simp)
        have c2 := hc 2 (by simp); have c3 := hc 3 (by simp)
        simp only [sigWord] at c0 c1 c2 c3
        rw [Prod.ext_iff, Prod.ext_iff, Prod.ext_iff]
        exact ⟨c0, c1, c2, c3⟩
      refine finish_exact sigLes_isOrder hperm hlex (Or.inl hmix) ?_ ?_ i hi
      · intro a b ha hb hf _ hs
        have := rows_eq_of_no_collision sigLes_isOrder hperm hlex hc hmix (fun _ _ => sameAll_symm)
          (fun _ _ _ => sameAll_trans sigLes_isOrder) ha hb hf hs
        obtain ⟨x, hx⟩ := getElem?_some_of_lt ha
        obtain ⟨y, hy⟩ := getElem?_some_of_lt hb
        rw [map_getD _ hx, map_getD _ hy] at this
        rw [hx, hy, E.words_inj _ _ this]
      · intro a b ha hb hfa hfb he
        obtain ⟨x, hx⟩ := getElem?_some_of_lt ha
        rw [sigLes_eq]
        rw [hx] at he
        exact ((same_cols _ (fun c x => sigWord c (E.words x)) hx he).1 hfa hfb).2 (fun _ _ => rfl)

/-- What `Guard` says about lanes grouped by their hash pairs (modes `safe` and `approx`). -/
theorem guard_pairs {mode : Mode} (hm : mode ≠ .exact) {E : Enc α} {xs : List α} {filled : List Bool} (hg : Guard mode E xs filled) {i j : Nat}
    (hi : i < xs.length) (hj : j < xs.length) (hf : filled.getD i false = true)
    (hs : sameAll (pairLes filled (xs.map E.h1) (xs.map E.h2)) i j = true) : filled.getD j false = true := by
  have hg' : AllFilled xs filled ∨ PairsClean E xs filled := by
    cases mode with
    | exact => exact absurd rfl hm
    | safe => exact hg.imp_right And.left
    | approx => exact hg.2
  rw [pairLes_eq] at hs
  exact no_mix _ _ (hg'.imp_right (fun h i x hx hf hc => h i x hx hf ⟨hc false (by simp), hc true (by simp)⟩)) hi hj hf hs

/-- What `Guard` says when mode `safe` finds a collision. -/
theorem guard_rows {E : Enc α} {xs : List α} {filled : List Bool} (hg : Guard .safe E xs filled) {sorted : List Nat}
    (hp : sorted.Perm (List.range xs.length))
    (hc : collision filled (xs.map E.words) (sameAll (pairLes filled (xs.map E.h1) (xs.map E.h2))) sorted = true) :
    AllFilled xs filled ∨ RowsClean .safe E xs filled := by
  refine Or.imp_right (fun h => ?_) hg
  rcases h.2 with hn | h
  · rw [no_collision hn hp] at hc; cases hc
  · exact ⟨h.1, Or.inr h.2⟩

theorem guardFor_rows {E : Enc α} {xs : List α} {filled : List Bool} {key : Option (List K)} (hg : GuardFor .safe E xs filled key) {sorted : List Nat}
    (hp : sorted.Perm (List.range xs.length))
    (hc : collision filled (xs.map E.words) (sameAll (pairLes filled (xs.map E.h1) (xs.map E.h2))) sorted = true) :
    AllFilled xs filled ∨ RowsCleanFor .safe E xs filled key := by
  rcases hg with h | ⟨_, hn⟩ | ⟨_, h1, h2⟩
  · exact Or.inl h
  · rw [no_collision hn hp] at hc; cases hc
  · exact Or.inr ⟨h1, Or.inr h2⟩

/-- What `GuardFor` says about lanes grouped by their hash pairs (modes `safe` and `approx`): no filled lane is grouped with an unfilled one, or the keys are
finite and hash pairs do not collide. -/
theorem guardFor_pairs {mode : Mode} (hm : mode ≠ .exact) {E : Enc α} {xs : List α} {filled : List Bool} {key : Option (List K)}
    (hg : GuardFor mode E xs filled key) :
    (∀ i j, i < xs.length → j < xs.length → filled.getD i false = true →
      sameAll (pairLes filled (xs.map E.h1) (xs.map E.h2)) i j = true → filled.getD j false = true) ∨
    KeysFinite xs filled key ∧ NoPairCollision E xs filled := by
  have hg' : (AllFilled xs filled ∨ PairsClean E xs filled) ∨ KeysFinite xs filled key ∧ NoPairCollision E xs filled := by
    cases mode with
    | exact => exact absurd rfl hm
    | safe =>
      rcases hg with h | ⟨h | h, hn⟩ | ⟨h, _⟩
      · exact Or.inl (Or.inl h)
      · exact Or.inr ⟨h, hn⟩
      · exact Or.inl (Or.inr h)
      · exact Or.inl (Or.inr h)
    | approx =>
      rcases hg with ⟨hn, h | h | h⟩
      · exact Or.inl (Or.inl h)
      · exact Or.inr ⟨h, hn⟩
      · exact Or.inl (Or.inr h)
  refine hg'.imp_left fun hg' i j hi hj hf hs => ?_
  rw [pairLes_eq] at hs
  exact no_mix _ _ (hg'.imp_right (fun h i x hx hf hc => h i x hx hf ⟨hc false (by simp), hc true (by simp)⟩)) hi hj hf hs

/-- **C23**, every mode, for every hash function and every sort backend: the unique mask
selects exactly one lane per distinct filled item, the one with the least key and lowest index, and every
filled lane's representative is that lane; unfilled lanes are never selected.

Partial: the batch must satisfy `GuardFor`.  In mode `exact`: all lanes filled, or no filled lane has the key `+inf`, or none encodes to the
sentinel `0xFFFFFFFF…` that the code gives to unfilled lanes; in mode `approx` the same for hashes, and no collision of hash pairs; in mode `safe` one or the other,
with no filled lane hashing to the sentinel if hash pairs collide.  `dedupe_sentinel_collision`, `dedupe_sentinel_inf_key` and `dedupe_approx_collision`
show that the property is false without it. -/
theorem dedupe_exact_partial {mode : Mode} (E : Enc α) (xs : List α) (filled : List Bool)
    (key : Option (List K)) (hg : GuardFor mode E xs filled key) {sorted : List Nat}
    (hp : sorted.Perm (List.range xs.length))
    (hsort : sorted.Pairwise (Lex (fun _ _ => True) (pairLes filled (xs.map E.h1) (xs.map E.h2))))
    (i : Nat) (hi : i < xs.length) :
    let r := dedupePairsFrom mode xs.length E.wc (xs.map E.h1) (xs.map E.h2) (xs.map E.words) filled key sorted
    (filled[i]? = some true → IsBest xs filled key i (r.2.getD i 0)) ∧
    (r.1[i]? = some true ↔ filled[i]? = some true ∧ IsBest xs filled key i i) := by
  have hB : ∀ i j, i < xs.length → j < xs.length → filled.getD i false = true → filled.getD j false = true →
      xs[j]? = xs[i]? → sameAll (pairLes filled (xs.map E.h1) (xs.map E.h2)) i j = true := by
    intro a b ha hb hfa hfb he
    obtain ⟨x, hx⟩ := getElem?_some_of_lt ha
    rw [pairLes_eq]
    rw [hx] at he
    exact ((same_cols _ _ hx he).1 hfa hfb).2 (fun _ _ => rfl)
  have goal : ExactAt xs filled key i (dedupePairsFrom mode xs.length E.wc (xs.map E.h1) (xs.map E.h2)
      (xs.map E.words) filled key sorted) := by
    cases mode with
    | approx =>
      refine finish_exact pairLes_isOrder hp hsort ((guardFor_pairs (by simp) hg).imp_right And.left) ?_ hB i hi
      intro a b ha hb hf hfb hs
      exact pair_items hg.1 ha hb hf hfb hs
    | exact => exact dedupeRows_exact (by simp) key (hg.imp_right fun h => ⟨h, Or.inl rfl⟩) i hi
    | safe =>
      simp only [dedupePairsFrom]
      split
      · rename_i hc
        exact dedupeRows_exact (by simp) key (guardFor_rows hg hp hc) i hi
      · rename_i hc
        have hc : collision filled (xs.map E.words) (sameAll (pairLes filled (xs.map E.h1) (xs.map E.h2))) sorted
            = false := by simpa using hc
        refine finish_exact pairLes_isOrder hp hsort ((guardFor_pairs (by simp) hg).imp_right And.left) ?_ hB i hi
        intro a b ha hb hf hfb hs
        rcases guardFor_pairs (by simp) hg with hmix | ⟨_, hn⟩
        case inr => exact pair_items hn ha hb hf hfb hs
        have := rows_eq_of_no_collision pairLes_isOrder hp hsort hc hmix (fun _ _ => sameAll_symm)
          (fun _ _ _ => sameAll_trans pairLes_isOrder) ha hb hf hs
        obtain ⟨x, hx⟩ := getElem?_some_of_lt ha
        obtain ⟨y, hy⟩ := getElem?_some_of_lt hb
        rw [map_getD _ hx, map_getD _ hy] at this
        rw [hx, hy, E.words_inj _ _ this]
  simp only [ExactAt, filled_iff] at goal
  exact goal

/-- The default backend's sort meets the hypotheses of `dedupe_exact_partial`. -/
theorem dedupe_default_sorted (E : Enc α) (xs : List α) (filled : List Bool) :
    (sortPasses (pairLes filled (xs.map E.h1) (xs.map E.h2)) (List.range xs.length)).Perm (List.range xs.length) ∧
    (sortPasses (pairLes filled (xs.map E.h1) (xs.map E.h2)) (List.range xs.length)).Pairwise
      (Lex (fun _ _ => True) (pairLes filled (xs.map E.h1) (xs.map E.h2))) :=
  ⟨sortPasses_perm _ _, sortPasses_lex _ _ (range_pairwise_true _) pairLes_isOrder⟩

/-- Selected lanes with equal sort keys are the same lane. -/
theorem finish_selected_same {n : Nat} {filled : List Bool} {key : Option (List K)} {i j : Nat} (hi : i < n) (hj : j < n)
    {les : List (Nat → Nat → Bool)} {sorted : List Nat} (hles : ∀ le ∈ les, IsOrder le)
    (hp : sorted.Perm (List.range n)) (hs : sorted.Pairwise (Lex (fun _ _ => True) les))
    (hsame : filled.getD i false = true → filled.getD j false = true → sameAll les i j = true) :
    let r := finish n filled key sorted (groupStarts (sameAll les) sorted)
    r.1.getD i false = true → r.1.getD j false = true → i = j ∧ filled.getD i false = true ∧ r.2.getD i 0 = i := by
  intro r hri hrj
  obtain ⟨⟨m, m1, m2, m3⟩, h2⟩ := finish_sort_spec (filled := filled) (key := key) hles hp hs i hi
  obtain ⟨⟨m', m1', m2', m3'⟩, h2'⟩ := finish_sort_spec (filled := filled) (key := key) hles hp hs j hj
  have a1 : (filled.getD i false && (i == r.2.getD i 0)) = true := by
    rw [← hri]; exact h2.symm
  have a2 : (filled.getD j false && (j == r.2.getD j 0)) = true := by
    rw [← hrj]; exact h2'.symm
  simp only [Bool.and_eq_true, beq_iff_eq] at a1 a2
  have hij := hsame a1.1 a2.1
  rw [if_pos a1.1] at m3
  rw [if_pos a2.1] at m3'
  have hmm : m = m' := by
    apply Nat.le_antisymm
    · rcases m1' with e | ⟨l, s, c⟩
      · rcases m1 with e1 | ⟨l1, _, _⟩ <;> omega
      · exact m2 m' l (sameAll_trans hles hij s) c
    · rcases m1 with e | ⟨l, s, c⟩
      · rcases m1' with e1 | ⟨l1, _, _⟩ <;> omega
      · exact m2' m l (sameAll_trans hles (sameAll_symm hij) s) c
  have b1 : i = if m = n then 0 else m := a1.2.trans m3
  have b2 : j = if m' = n then 0 else m' := a2.2.trans m3'
  refine ⟨?_, a1.1, a1.2.symm⟩
  rw [b1, b2, hmm]

/-- Unconditionally (every mode, no guard): two selected lanes never hold equal items, only filled lanes are
selected, and a selected lane is its own representative. -/
theorem dedupe_selected_distinct (mode : Mode) (E : Enc α) (xs : List α) (filled : List Bool)
    (key : Option (List K)) {i j : Nat} (hi : i < xs.length) (hj : j < xs.length)
    (hmi : (dedupe mode E xs filled key).1[i]? = some true) (hmj : (dedupe mode E xs filled key).1[j]? = some true)
    (he : xs[i]? = xs[j]?) : i = j ∧ filled[i]? = some true ∧ (dedupe mode E xs filled key).2.getD i 0 = i := by
  have core : ∀ (les : List (Nat → Nat → Bool)) (sorted : List Nat), (∀ le ∈ les, IsOrder le) →
      sorted.Perm (List.range xs.length) → sorted.Pairwise (Lex (fun _ _ => True) les) →
      (filled.getD i false = true → filled.getD j false = true → sameAll les i j = true) →
      let r := finish xs.length filled key sorted (groupStarts (sameAll les) sorted)
      r.1.getD i false = true → r.1.getD j false = true →
        i = j ∧ filled.getD i false = true ∧ r.2.getD i 0 = i :=
    fun les sorted hles hp hs hsame => finish_selected_same hi hj hles hp hs hsame
  obtain ⟨x, hx⟩ := getElem?_some_of_lt hi
  have hy : xs[j]? = some x := by rw [← he]; exact hx
  have hrow : filled.getD i false = true → filled.getD j false = true →
      sameAll (rowLes filled (xs.map E.words) E.wc) i j = true := by
    intro h1 h2; rw [rowLes_eq]
    exact ((same_cols _ _ hx hy).1 h1 h2).2 (fun _ _ => rfl)
  have hsig : filled.getD i false = true → filled.getD j false = true →
      sameAll (sigLes filled (xs.map E.words)) i j = true := by
    intro h1 h2; rw [sigLes_eq]
    exact ((same_cols _ (fun c x => sigWord c (E.words x)) hx hy).1 h1 h2).2 (fun _ _ => rfl)
  have hpair : filled.getD i false = true → filled.getD j false = true →
      sameAll (pairLes filled (xs.map E.h1) (xs.map E.h2)) i j = true := by
    intro h1 h2; rw [pairLes_eq]
    exact ((same_cols _ _ hx hy).1 h1 h2).2 (fun _ _ => rfl)
  have hrows : ∀ mode', let r := dedupeRows mode' xs.length E.wc (xs.map E.words) filled key
      r.1.getD i false = true → r.1.getD j false = true →
        i = j ∧ filled.getD i false = true ∧ r.2.getD i 0 = i := by
    intro mode'
    have c1 := core _ _ (rowLes_isOrder (filled := filled) (rows := xs.map E.words) (wc := E.wc)) (sortPasses_perm _ _)
      (sortPasses_lex (R := fun _ _ => True) _ _ (range_pairwise_true _) rowLes_isOrder) hrow
    have c2 := core _ _ (sigLes_isOrder (filled := filled) (rows := xs.map E.words)) (sortPasses_perm _ _)
      (sortPasses_lex (R := fun _ _ => True) _ _ (range_pairwise_true _) sigLes_isOrder) hsig
    simp only [dedupeRows]
    split
    · exact c1
    · split
      · exact c1
      · exact c2
  have c3 := core _ _ (pairLes_isOrder (filled := filled) (h1 := xs.map E.h1) (h2 := xs.map E.h2))
      (sortPasses_perm _ _)
      (sortPasses_lex (R := fun _ _ => True) _ _ (range_pairwise_true _) pairLes_isOrder) hpair
  have hall : (dedupe mode E xs filled key).1.getD i false = true →
      (dedupe mode E xs filled key).1.getD j false = true →
      i = j ∧ filled.getD i false = true ∧ (dedupe mode E xs filled key).2.getD i 0 = i := by
    unfold dedupe dedupePairs dedupePairsFrom
    cases mode with
    | exact => exact hrows _
    | approx => exact c3
    | safe =>
      simp only
      split
      · exact hrows _
      · exact c3
  have := hall (filled_iff.2 hmi) (filled_iff.2 hmj)
  exact ⟨this.1, filled_iff.1 this.2.1, this.2.2⟩

/-! ## The property is false without the guard -/

/-- An encoding with a hash collision on the sentinel pair. -/
def badEnc : Enc Nat where
  wc := 1
  words x := [x]
  h1 _ := sentinel
  h2 _ := sentinel
  words_length := by simp
  words_inj := by simp

/-- **C23 is false**, 1: items 7 and 8 whose hash pair is the sentinel pair, separated by an unfilled lane: the
collision check only compares adjacent filled entries, so the two are merged and 8 is lost. -/
theorem dedupe_sentinel_collision :
    let r := dedupe (K := Option Nat) .safe badEnc [7, 0, 8] [true, false, true] none
    r.1 = [true, false, false] ∧ ¬ IsBest (K := Option Nat) [7, 0, 8] [true, false, true] none 2 (r.2.getD 2 0) := by
  refine ⟨by decide +kernel, ?_⟩
  rintro ⟨_, _, h, _⟩
  revert h; decide +kernel

/-- **C23 is false**, 2 (`exact` mode): an item encoded as `0xFFFFFFFF`, key `+inf`, after an unfilled lane: no lane
at all is selected for it. -/
theorem dedupe_sentinel_inf_key :
    (dedupe (K := Option Nat) .exact badEnc [0, sentinel] [false, true] (some [none, none])).1 = [false, false] := by
  decide +kernel

/-- In mode `approx` at most one lane is selected per hash pair, whatever the items. -/
theorem approx_one_per_pair (E : Enc α) (xs : List α) (filled : List Bool) (key : Option (List K)) {i j : Nat} {x y : α} (hx : xs[i]? = some x) (hy : xs[j]? = some y)
    (hmi : (dedupe .approx E xs filled key).1[i]? = some true) (hmj : (dedupe .approx E xs filled key).1[j]? = some true)
    (h1 : E.h1 x = E.h1 y) (h2 : E.h2 x = E.h2 y) : i = j := by
  have hi := (List.getElem?_eq_some_iff.1 hx).1
  have hj := (List.getElem?_eq_some_iff.1 hy).1
  obtain ⟨hp, hs⟩ := dedupe_default_sorted E xs filled
  refine (finish_selected_same hi hj pairLes_isOrder hp hs (fun f1 f2 => ?_) (by rw [List.getD_eq_getElem?_getD]; exact congrArg (·.getD false) hmi)
    (by rw [List.getD_eq_getElem?_getD]; exact congrArg (·.getD false) hmj)).1
  rw [pairLes_eq]
  refine ((same_cols _ _ hx hy).1 f1 f2).2 (fun c _ => ?_)
  cases c
  · exact h1
  · exact h2

/-- **C23 is false**, 3 (`approx` mode): of two items with equal hash pairs one is lost. -/
theorem dedupe_approx_collision :
    let r := dedupe (K := Option Nat) .approx { badEnc with h1 := fun _ => 0 } [7, 8] [true, true] none
    r.1 = [true, false] ∧ ¬ IsBest (K := Option Nat) [7, 8] [true, true] none 1 (r.2.getD 1 0) := by
  refine ⟨by decide +kernel, ?_⟩
  rintro ⟨_, _, h, _⟩
  revert h; decide +kernel

/-- Non-vacuity: a batch with duplicates, a hash collision, an unfilled lane and keys meets `Guard`, and the result
picks the cheapest lane of each item. -/
example :
    let E : Enc Nat := { wc := 1, words := fun x => [x], h1 := fun x => x % 2, h2 := fun _ => 0,
                         words_length := by simp, words_inj := by simp }
    Guard .safe E [5, 7, 5, 9, 7] [true, true, true, false, true] ∧ Guard .exact E [5, 7, 5, 9, 7] [true, true, true, false, true] ∧
    Guard .approx E [5, 4, 5, 9, 4] [true, true, true, false, true] ∧
    dedupe (K := Option Nat) .safe E [5, 7, 5, 9, 7] [true, true, true, false, true]
      (some [some 3, some 1, some 2, some 0, some 1]) = ([false, true, true, false, false], [2, 1, 2, 0, 1]) := by
  have hmem : ∀ (P : Nat → Prop) (xs : List Nat) (f : List Bool), (∀ x ∈ xs, P x) → OnFilled xs f P := fun P xs f h i x hx _ => h x (List.mem_of_getElem? hx)
  refine ⟨Or.inr ⟨hmem _ _ _ (by decide +kernel), Or.inr ⟨hmem _ _ _ (by decide +kernel), fun h => absurd h (by decide)⟩⟩, Or.inr (hmem _ _ _ (by decide +kernel)),
    ⟨?_, Or.inr (hmem _ _ _ (by decide +kernel))⟩, by decide +kernel⟩
  intro i x hx hf j y hy hfj h1 _
  have hlanes : ∀ (i x : Nat), [5, 4, 5, 9, 4][i]? = some x → [true, true, true, false, true][i]? = some true → x = 5 ∨ x = 4 := by
    intro i x hx hf
    match i, hx, hf with
    | 0, hx, _ => simp at hx; omega
    | 1, hx, _ => simp at hx; omega
    | 2, hx, _ => simp at hx; omega
    | 3, _, hf => simp at hf
    | 4, hx, _ => simp at hx; omega
    | i + 5, hx, _ => simp at hx
  simp only at h1
  rcases hlanes i x hx hf with rfl | rfl <;> rcases hlanes j y hy hfj with rfl | rfl <;> simp_all

end Dedupe
