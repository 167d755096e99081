import Verif.ProbePath

/-! # Invariant of the hash table and correctness of lookup -/

namespace HashTable

open Jax SortGroup Dedupe

variable {α : Type u} [DecidableEq α]

/-- Fill level of a bucket. -/
def fillOf (T : Table α) (b : Nat) : Nat := T.fill.getD b 0

/-- Content of the slot array at bucket `b`, slot `s`. -/
def item (T : Table α) (b s : Nat) : Option α := T.table[b * T.bs + s]?

/-- Static facts about a table. -/
structure Shape (T : Table α) : Prop where
  pow2 : ∃ k, T.cap = 2 ^ k
  bs_pos : 1 ≤ T.bs
  bs_le : T.bs ≤ 255
  small : (T.cap + 1) * T.bs < 2 ^ 31
  len_table : T.table.length = (T.cap + 1) * T.bs
  len_fps : T.fps.length = (T.cap + 1) * T.bs
  len_fill : T.fill.length = T.cap + 1
  len_occ : T.occ.length = T.cap + 1
  probes : T.cap * T.bs ≤ T.maxProbes

namespace Shape

variable {T : Table α} (h : Shape T)
include h

theorem cap_pos : 0 < T.cap := by
  obtain ⟨k, hk⟩ := h.pow2; rw [hk]; exact Nat.two_pow_pos k

theorem cap_lt : T.cap < 2 ^ 31 := by
  have h1 := h.small
  have h2 := h.bs_pos
  have : (T.cap + 1) * 1 ≤ (T.cap + 1) * T.bs := Nat.mul_le_mul_left _ h2
  omega

theorem pow2' : ∃ k, T.cap = 2 ^ k ∧ k ≤ 32 := by
  obtain ⟨k, hk⟩ := h.pow2
  refine ⟨k, hk, ?_⟩
  have := h.cap_lt
  rw [hk] at this
  have := (Nat.pow_lt_pow_iff_right (a := 2) (by omega)).1 this
  omega

theorem flat_bound {b s : Nat} (hb : b < T.cap) (hs : s < T.bs) : b * T.bs + s < T.cap * T.bs := by
  have : (b + 1) * T.bs ≤ T.cap * T.bs := Nat.mul_le_mul_right _ hb
  rw [Nat.add_mul] at this; omega

theorem flat_bound' {b s : Nat} (hb : b < T.cap) (hs : s ≤ T.bs) : b * T.bs + s < (T.cap + 1) * T.bs := by
  have : (b + 1) * T.bs ≤ T.cap * T.bs := Nat.mul_le_mul_right _ hb
  have h2 := h.bs_pos
  rw [Nat.add_mul] at this
  rw [Nat.add_mul]; omega

theorem flat_eq {b s : Nat} (hb : b < T.cap) (hs : s ≤ T.bs) : flat T b s = b * T.bs + s := by
  have := h.flat_bound' hb hs
  have := h.small
  unfold flat; omega

omit h in
theorem flat_inj {b s b' s' n : Nat} (hs : s < n) (hs' : s' < n) (he : b * n + s = b' * n + s') : b = b' ∧ s = s' := by
  have h1 : (b * n + s) / n = b := by
    rw [Nat.mul_comm, Nat.mul_add_div (by omega), Nat.div_eq_of_lt hs]; rfl
  have h2 : (b' * n + s') / n = b' := by
    rw [Nat.mul_comm, Nat.mul_add_div (by omega), Nat.div_eq_of_lt hs']; rfl
  have : b = b' := by rw [← h1, he, h2]
  subst this; omega

theorem item_isSome {b s : Nat} (hb : b < T.cap) (hs : s < T.bs) : ∃ x, item T b s = some x := by
  unfold item
  have := h.flat_bound' hb (Nat.le_of_lt hs)
  exact ⟨_, List.getElem?_eq_getElem (by rw [h.len_table]; exact this)⟩

theorem rd_fill {b : Nat} (hb : b < T.cap) : rd T.fill b = fillOf T b := by
  unfold rd fillOf; congr 1; rw [h.len_fill]; omega

theorem rd_occ {b : Nat} (hb : b < T.cap) : rd T.occ b = T.occ.getD b 0 := by
  unfold rd; congr 1; rw [h.len_occ]; omega

theorem rd_fps {b s : Nat} (hb : b < T.cap) (hs : s < T.bs) : rd T.fps (flat T b s) = T.fps.getD (b * T.bs + s) 0 := by
  rw [h.flat_eq hb (by omega)]
  unfold rd; congr 1; rw [h.len_fps]
  have := h.flat_bound' hb (Nat.le_of_lt hs); omega

theorem gather_table {b s : Nat} (hb : b < T.cap) (hs : s < T.bs) : gatherU T.table (flat T b s) = item T b s := by
  rw [h.flat_eq hb (by omega), gatherU_of_lt]; · rfl
  rw [h.len_table]; exact h.flat_bound' hb (Nat.le_of_lt hs)

theorem path_lt' (H : Hasher α) (x : α) (j : Nat) : path H T x j < T.cap := by
  obtain ⟨k, hk, hk'⟩ := h.pow2'; exact path_lt H hk hk' x j

theorem path_surj (H : Hasher α) (x : α) {b : Nat} (hb : b < T.cap) : ∃ j, j < T.cap ∧ path H T x j = b := by
  obtain ⟨k, hk, hk'⟩ := h.pow2'; exact (probe_visits_all H T k hk hk' x).2 b hb

theorem path_inj (H : Hasher α) (x : α) {i j : Nat} (hi : i < T.cap) (hj : j < T.cap)
    (he : path H T x i = path H T x j) : i = j := by
  obtain ⟨k, hk, hk'⟩ := h.pow2'; exact (probe_visits_all H T k hk hk' x).1 i j hi hj he

end Shape

/-- Invariant of every reachable table. -/
structure Inv (H : Hasher α) (T : Table α) : Prop extends Shape T where
  fill_le : ∀ b, b < T.cap → fillOf T b ≤ T.bs
  fp_ok : ∀ b s x, b < T.cap → s < fillOf T b → item T b s = some x → T.fps.getD (b * T.bs + s) 0 = H.fp x
  path_ok : ∀ b s x, b < T.cap → s < fillOf T b → item T b s = some x →
    ∃ j, j < T.cap ∧ path H T x j = b ∧ ∀ i, i < j → fillOf T (path H T x i) = T.bs
  distinct : ∀ b s b' s' x, b < T.cap → s < fillOf T b → b' < T.cap → s' < fillOf T b' →
    item T b s = some x → item T b' s' = some x → b = b' ∧ s = s'
  size_ok : T.size = ((List.range T.cap).map (fillOf T)).sum
  occ_ok : T.bs ≤ 32 → ∀ b, b < T.cap → T.occ.getD b 0 = 2 ^ fillOf T b - 1

/-- `x` is in bucket `b` at slot `s`. -/
def Has (T : Table α) (x : α) (b s : Nat) : Prop := s < fillOf T b ∧ item T b s = some x

theorem argmaxB_spec {l : List Bool} (h : l.any id = true) : l.getD (argmaxB l) false = true := by
  unfold argmaxB
  rw [if_pos h]
  have : ∃ x ∈ l, id x = true := by simpa using h
  have hlt := List.findIdx_lt_length_of_exists this
  rw [List.getD_eq_getElem?_getD, List.getElem?_eq_getElem hlt]
  exact List.findIdx_getElem (p := id) (w := hlt)

theorem any_tab {n : Nat} {f : Nat → Bool} : (tab n f).any id = true ↔ ∃ s, s < n ∧ f s = true := by
  simp [tab]

theorem getD_true_lt {l : List Bool} {s : Nat} (h : l.getD s false = true) : s < l.length := by
  rw [List.getD_eq_getElem?_getD] at h
  cases he : l[s]? with
  | none => rw [he] at h; cases h
  | some v => exact (List.getElem?_eq_some_iff.1 he).1

/-- A bucket scan finds exactly the items stored in the bucket. -/
theorem scan_spec {H : Hasher α} {T : Table α} (hi : Inv H T) (x : α) {b : Nat} (hb : b < T.cap) :
    ((scanBucket H T x b).1 = true → Has T x b (scanBucket H T x b).2) ∧
    ((scanBucket H T x b).1 = false → ∀ s, ¬ Has T x b s) := by
  have hsh := hi.toShape
  have hfl := hi.fill_le b hb
  have hlim : limit T b = fillOf T b := by
    unfold limit; rw [hsh.rd_fill hb]; have := hsh.bs_le; omega
  have hm : ∀ s, (fpMatches H T x b).getD s false = true ↔ s < fillOf T b ∧ T.fps.getD (b * T.bs + s) 0 = H.fp x := by
    intro s
    constructor
    · intro h
      have hs := getD_true_lt h
      simp only [fpMatches, tab_length] at hs
      rw [fpMatches, tab_getD _ _ hs] at h
      simp only [hlim, Bool.and_eq_true, decide_eq_true_eq, beq_iff_eq] at h
      rw [hsh.rd_fps hb hs] at h
      exact h
    · rintro ⟨h1, h2⟩
      have hs : s < T.bs := by omega
      rw [fpMatches, tab_getD _ _ hs]
      simp only [hlim, Bool.and_eq_true, decide_eq_true_eq, beq_iff_eq]
      rw [hsh.rd_fps hb hs]
      exact ⟨h1, h2⟩
  have hany : (fpMatches H T x b).any id = true ↔ ∃ s, (fpMatches H T x b).getD s false = true := by
    constructor
    · intro h; exact ⟨_, argmaxB_spec h⟩
    · rintro ⟨s, hs⟩
      have hlt := getD_true_lt hs
      rw [List.any_eq_true]
      refine ⟨_, List.mem_of_getElem? (i := s) (getElem?_of_lt false hlt), ?_⟩
      simpa using hs
  generalize hmm : fpMatches H T x b = m at hm hany
  have hml : m.length = T.bs := by rw [← hmm]; simp [fpMatches]
  have e : scanBucket H T x b =
      (let first := argmaxB m
       let foundFast := m.any id && (gatherU T.table (flat T b first) == some x)
       let other := tab T.bs fun s => m.getD s false && (s != first)
       let needFallback := !foundFast && other.any id
       let eqs := tab T.bs fun s => other.getD s false && (gatherU T.table (flat T b s) == some x)
       let fb := if needFallback then (eqs.any id, argmaxB eqs) else (false, 0)
       (foundFast || fb.1, if foundFast then first else fb.2)) := by
    unfold scanBucket; rw [hmm]
  rw [e]
  clear e
  by_cases hff : (m.any id && (gatherU T.table (flat T b (argmaxB m)) == some x)) = true
  · simp only [hff, if_true, Bool.true_or, Bool.not_true, Bool.false_and]
    refine ⟨fun _ => ?_, fun h => by cases h⟩
    simp only [Bool.and_eq_true, beq_iff_eq] at hff
    have h1 := (hm _).1 (argmaxB_spec hff.1)
    have hs : argmaxB m < T.bs := by have := h1.1; omega
    rw [hsh.gather_table hb hs] at hff
    exact ⟨h1.1, hff.2⟩
  · have hff' : (m.any id && (gatherU T.table (flat T b (argmaxB m)) == some x)) = false := by simpa using hff
    simp only [hff', Bool.false_or, Bool.not_false, Bool.true_and]
    generalize hother : (tab T.bs fun s => m.getD s false && (s != argmaxB m)) = other
    have hoth : ∀ s, other.getD s false = true ↔ m.getD s false = true ∧ s ≠ argmaxB m := by
      intro s
      rw [← hother]
      constructor
      · intro h
        have hs := getD_true_lt h
        rw [tab_length] at hs
        rw [tab_getD _ _ hs] at h
        simpa using h
      · rintro ⟨h1, h2⟩
        have hs := getD_true_lt h1
        rw [hml] at hs
        rw [tab_getD _ _ hs]
        simp [← List.getD_eq_getElem?_getD, h1, h2]
    generalize heqs : (tab T.bs fun s => other.getD s false && (gatherU T.table (flat T b s) == some x)) = eqs
    have heq : ∀ s, eqs.getD s false = true ↔ other.getD s false = true ∧ s < T.bs ∧ item T b s = some x := by
      intro s
      rw [← heqs]
      constructor
      · intro h
        have hs := getD_true_lt h
        rw [tab_length] at hs
        rw [tab_getD _ _ hs] at h
        simp only [Bool.and_eq_true, beq_iff_eq] at h
        rw [hsh.gather_table hb hs] at h
        exact ⟨h.1, hs, h.2⟩
      · rintro ⟨h1, hs, h2⟩
        rw [tab_getD _ _ hs]
        simp only [Bool.and_eq_true, beq_iff_eq]
        rw [hsh.gather_table hb hs]
        exact ⟨h1, h2⟩
    have eqsany : eqs.any id = true ↔ ∃ s, eqs.getD s false = true := by
      constructor
      · intro h; exact ⟨_, argmaxB_spec h⟩
      · rintro ⟨s, hs⟩
        have hlt := getD_true_lt hs
        rw [List.any_eq_true]
        refine ⟨_, List.mem_of_getElem? (i := s) (getElem?_of_lt false hlt), ?_⟩
        simpa using hs
    constructor
    · intro h
      split at h
      · rename_i hneed
        rw [if_pos hneed]
        simp only at h
        have := (heq _).1 (argmaxB_spec h)
        exact ⟨((hm _).1 ((hoth _).1 this.1).1).1, this.2.2⟩
      · cases h
    · intro h s hs
      have hsb : s < T.bs := by have := hs.1; omega
      have hms : m.getD s false = true := (hm s).2 ⟨hs.1, hi.fp_ok b s x hb hs.1 hs.2⟩
      by_cases hsf : s = argmaxB m
      · apply hff
        simp only [Bool.and_eq_true, beq_iff_eq]
        refine ⟨hany.2 ⟨s, hms⟩, ?_⟩
        rw [← hsf, hsh.gather_table hb hsb]; exact hs.2
      · have ho : other.getD s false = true := (hoth s).2 ⟨hms, hsf⟩
        have hoa : other.any id = true := by
          have hlt := getD_true_lt ho
          rw [List.any_eq_true]
          refine ⟨_, List.mem_of_getElem? (i := s) (getElem?_of_lt false hlt), ?_⟩
          simpa using ho
        rw [hoa] at h
        simp only [if_true] at h
        have : eqs.any id = true := eqsany.2 ⟨s, (heq s).2 ⟨ho, hsb, hs.2⟩⟩
        rw [this] at h; cases h

/-- Bucket `b` is full and does not contain `x`. -/
def Skip (T : Table α) (x : α) (b : Nat) : Prop := fillOf T b = T.bs ∧ ∀ s, ¬ Has T x b s

/-- Outcome of a probe loop that stops at path position `j`. -/
inductive Outcome (H : Hasher α) (T : Table α) (x : α) (j : Nat) : (Nat × Nat) × Bool → Prop
  | found (s : Nat) : Has T x (path H T x j) s → Outcome H T x j ((path H T x j, s), true)
  | absent : fillOf T (path H T x j) < T.bs → (∀ s, ¬ Has T x (path H T x j) s) →
      Outcome H T x j ((path H T x j, fillOf T (path H T x j)), false)
  | limit : T.maxProbes ≤ j * T.bs → Outcome H T x j ((path H T x j, 0), false)

theorem lookupLoop_done (H : Hasher α) (T : Table α) (x : α) (fuel b s : Nat) (found : Bool) (probes : Nat)
    (h : found = true ∨ T.maxProbes ≤ probes) : lookupLoop H T x fuel b s found probes = ((b, s), found) := by
  cases fuel with
  | zero => rfl
  | succ fuel =>
    simp only [lookupLoop]
    rw [if_neg]
    rcases h with h | h
    · simp [h]
    · simp; intro _; omega

theorem lookupLoop_spec {H : Hasher α} {T : Table α} (hi : Inv H T) (x : α) (fuel j : Nat)
    (hf : T.maxProbes < fuel + j * T.bs) :
    ∃ j', j ≤ j' ∧ (∀ l, j ≤ l → l < j' → l * T.bs < T.maxProbes ∧ Skip T x (path H T x l)) ∧
      Outcome H T x j' (lookupLoop H T x fuel (path H T x j) 0 false (j * T.bs)) := by
  have hsh := hi.toShape
  induction fuel generalizing j with
  | zero =>
    refine ⟨j, Nat.le_refl _, fun l h1 h2 => by omega, ?_⟩
    exact Outcome.limit (by omega)
  | succ fuel ih =>
    by_cases hp : j * T.bs < T.maxProbes
    · have hb := hsh.path_lt' H x j
      have hlim : limit T (path H T x j) = fillOf T (path H T x j) := by
        unfold limit; rw [hsh.rd_fill hb]; have := hi.fill_le _ hb; have := hsh.bs_le; omega
      obtain ⟨s1, s2⟩ := scan_spec hi x hb
      simp only [lookupLoop, Bool.not_false, Bool.true_and, hp, decide_true, if_true]
      cases hr : (scanBucket H T x (path H T x j)).1 with
      | true =>
        refine ⟨j, Nat.le_refl _, fun l h1 h2 => by omega, ?_⟩
        simp only [Bool.true_or, if_true]
        rw [lookupLoop_done _ _ _ _ _ _ _ _ (Or.inl rfl)]
        exact Outcome.found _ (s1 hr)
      | false =>
        have hno := s2 hr
        by_cases hfull : fillOf T (path H T x j) = T.bs
        · have e : (limit T (path H T x j) == T.bs) = true := by rw [hlim, hfull]; simp
          simp only [e, Bool.not_true, Bool.or_false, Bool.false_eq_true, if_false]
          have e2 : j * T.bs + T.bs = (j + 1) * T.bs := by rw [Nat.add_mul]; omega
          rw [e2]
          obtain ⟨j', hj, hskip, hout⟩ := ih (j + 1) (by rw [Nat.add_mul]; have := hsh.bs_pos; omega)
          refine ⟨j', by omega, ?_, hout⟩
          intro l h1 h2
          by_cases hl : l = j
          · subst hl; exact ⟨hp, hfull, hno⟩
          · exact hskip l (by omega) h2
        · have e : (limit T (path H T x j) == T.bs) = false := by rw [hlim]; simpa using hfull
          simp only [e, Bool.not_false, Bool.or_true, if_true, Bool.false_eq_true, if_false]
          rw [lookupLoop_done _ _ _ _ _ _ _ _ (Or.inr (Nat.le_refl _)), hlim]
          refine ⟨j, Nat.le_refl _, fun l h1 h2 => by omega, ?_⟩
          exact Outcome.absent (by have := hi.fill_le _ hb; omega) hno
    · refine ⟨j, Nat.le_refl _, fun l h1 h2 => by omega, ?_⟩
      rw [lookupLoop_done _ _ _ _ _ _ _ _ (Or.inr (by omega))]
      exact Outcome.limit (by omega)

/-- What a single lookup returns. -/
theorem lookupBucket_spec {H : Hasher α} {T : Table α} (hi : Inv H T) (x : α) :
    ∃ j, (∀ l, l < j → l * T.bs < T.maxProbes ∧ Skip T x (path H T x l)) ∧
      Outcome H T x j (lookupBucket H T x) := by
  obtain ⟨j, _, h1, h2⟩ := lookupLoop_spec hi x (T.maxProbes + 1) 0 (by omega)
  refine ⟨j, fun l hl => h1 l (by omega) hl, ?_⟩
  simp only [Nat.zero_mul] at h2
  exact h2

/-- A stored item is not skipped: it lies on the probe path before the first non-full bucket. -/
theorem has_of_path {H : Hasher α} {T : Table α} (hi : Inv H T) {x : α} {b s j : Nat} (hb : b < T.cap)
    (hh : Has T x b s) (hskip : ∀ l, l < j → Skip T x (path H T x l)) :
    ∃ p, p < T.cap ∧ path H T x p = b ∧ j ≤ p ∧ ∀ i, i < p → fillOf T (path H T x i) = T.bs := by
  obtain ⟨p, hp, hpb, hfull⟩ := hi.path_ok b s x hb hh.1 hh.2
  refine ⟨p, hp, hpb, ?_, hfull⟩
  apply Classical.byContradiction
  intro hlt
  have := (hskip p (by omega)).2 s
  rw [hpb] at this
  exact this hh

/-- Lookup finds `x` iff it is stored. -/
theorem lookupBucket_found {H : Hasher α} {T : Table α} (hi : Inv H T) (x : α) :
    ((lookupBucket H T x).2 = true ↔ ∃ b s, b < T.cap ∧ Has T x b s) ∧
    ((lookupBucket H T x).2 = true → (lookupBucket H T x).1.1 < T.cap ∧
      Has T x (lookupBucket H T x).1.1 (lookupBucket H T x).1.2) := by
  have hsh := hi.toShape
  obtain ⟨j, hskip, hout⟩ := lookupBucket_spec hi x
  generalize lookupBucket H T x = r at hout
  have hskip' : ∀ l, l < j → Skip T x (path H T x l) := fun l hl => (hskip l hl).2
  cases hout with
  | found s hs =>
    exact ⟨⟨fun _ => ⟨_, s, hsh.path_lt' H x j, hs⟩, fun _ => rfl⟩, fun _ => ⟨hsh.path_lt' H x j, hs⟩⟩
  | absent hlt hno =>
    refine ⟨⟨fun h => (by cases h), ?_⟩, fun h => (by cases h)⟩
    rintro ⟨b, s, hb, hh⟩
    obtain ⟨p, hp, hpb, hjp, hfull⟩ := has_of_path hi hb hh hskip'
    rcases Nat.lt_or_ge j p with h | h
    · have := hfull j h; omega
    · have : p = j := by omega
      subst this; rw [← hpb] at hh; exact absurd hh (hno s)
  | limit hlim =>
    refine ⟨⟨fun h => (by cases h), ?_⟩, fun h => (by cases h)⟩
    rintro ⟨b, s, hb, hh⟩
    obtain ⟨p, hp, hpb, hjp, hfull⟩ := has_of_path hi hb hh hskip'
    have hpr := hsh.probes
    have : T.cap * T.bs ≤ j * T.bs := by omega
    have := Nat.le_of_mul_le_mul_right this hsh.bs_pos
    omega

/-- The slot returned for an absent item: the first free slot on its path, unless every bucket is full. -/
theorem lookupBucket_absent {H : Hasher α} {T : Table α} (hi : Inv H T) (x : α)
    (h : (lookupBucket H T x).2 = false) :
    (∃ j, j < T.cap ∧ (∀ i, i < j → fillOf T (path H T x i) = T.bs) ∧ fillOf T (path H T x j) < T.bs ∧
      (lookupBucket H T x).1 = (path H T x j, fillOf T (path H T x j))) ∨
    ((∀ b, b < T.cap → fillOf T b = T.bs) ∧ (lookupBucket H T x).1.1 < T.cap ∧ (lookupBucket H T x).1.2 = 0) := by
  have hsh := hi.toShape
  obtain ⟨j, hskip, hout⟩ := lookupBucket_spec hi x
  generalize lookupBucket H T x = r at hout h
  cases hout with
  | found s hs => cases h
  | absent hlt hno =>
    left
    refine ⟨j, ?_, fun i hi' => (hskip i hi').2.1, hlt, rfl⟩
    apply Classical.byContradiction
    intro hge
    obtain ⟨p, hp, hpe⟩ := hsh.path_surj H x (hsh.path_lt' H x j)
    have := (hskip p (by omega)).2.1
    rw [hpe] at this; omega
  | limit hlim =>
    right
    refine ⟨?_, hsh.path_lt' H x j, rfl⟩
    intro b hb
    obtain ⟨p, hp, hpe⟩ := hsh.path_surj H x hb
    have hpr := hsh.probes
    have : T.cap * T.bs ≤ j * T.bs := by omega
    have := Nat.le_of_mul_le_mul_right this hsh.bs_pos
    have := (hskip p (by omega)).2.1
    rw [hpe] at this; exact this

end HashTable
