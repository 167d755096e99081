import Verif.HTPlace

/-! # From placed lanes to the new table -/

namespace HashTable

open Jax SortGroup Dedupe

variable {α : Type u} [DecidableEq α] {H : Hasher α} {T T' : Table α}

theorem nodup_subset_length {β : Type v} [DecidableEq β] {l₁ l₂ : List β} (hn : l₁.Nodup) (hs : ∀ x ∈ l₁, x ∈ l₂) :
    l₁.length ≤ l₂.length := by
  induction l₁ generalizing l₂ with
  | nil => simp
  | cons a l ih =>
    rw [List.nodup_cons] at hn
    have ha : a ∈ l₂ := hs a (by simp)
    have := ih (l₂ := l₂.erase a) hn.2 (by
      intro x hx
      have hne : x ≠ a := by intro h; subst h; exact hn.1 hx
      exact (List.mem_erase_of_ne hne).2 (hs x (by simp [hx])))
    rw [List.length_erase_of_mem ha] at this
    have := List.length_pos_of_mem ha
    simp only [List.length_cons]; omega

/-- A duplicate-free list of slots, closed downwards to `f`, is the interval starting at `f`. -/
theorem contiguous {S : List Nat} {f : Nat} (hn : S.Nodup) (hlo : ∀ s ∈ S, f ≤ s)
    (hdown : ∀ s ∈ S, ∀ s', f ≤ s' → s' < s → s' ∈ S) (s : Nat) : s ∈ S ↔ f ≤ s ∧ s < f + S.length := by
  have hup : ∀ s ∈ S, s < f + S.length := by
    intro s hs
    have := nodup_subset_length (l₁ := List.range' f (s - f + 1)) (l₂ := S) List.nodup_range' (by
      intro x hx
      rw [List.mem_range'_1] at hx
      rcases Nat.lt_or_ge x s with h | h
      · exact hdown s hs x hx.1 h
      · have := hlo s hs
        have : x = s := by omega
        subst this; exact hs)
    simp at this
    have := hlo s hs
    omega
  constructor
  · intro hs; exact ⟨hlo s hs, hup s hs⟩
  · rintro ⟨h1, h2⟩
    apply Classical.byContradiction
    intro hns
    have := nodup_subset_length (l₁ := S) (l₂ := (List.range' f S.length).erase s) hn (by
      intro x hx
      have hne : x ≠ s := by intro h; subst h; exact hns hx
      rw [List.mem_erase_of_ne hne, List.mem_range'_1]
      exact ⟨hlo x hx, hup x hx⟩)
    have hm : s ∈ List.range' f S.length := by rw [List.mem_range'_1]; exact ⟨h1, h2⟩
    rw [List.length_erase_of_mem hm, List.length_range'] at this
    omega

/-- Sum of `2 ^ s` over a contiguous set of slots. -/
theorem sum_pow_contiguous {S : List Nat} {f : Nat} (hn : S.Nodup) (hc : ∀ s, s ∈ S ↔ f ≤ s ∧ s < f + S.length) :
    (S.map (2 ^ ·)).sum = 2 ^ (f + S.length) - 2 ^ f := by
  have hp : S.Perm (List.range' f S.length) := by
    rw [List.perm_ext_iff_of_nodup hn List.nodup_range']
    intro a; rw [hc, List.mem_range'_1]
  have : (S.map (2 ^ ·)).sum = ((List.range' f S.length).map (2 ^ ·)).sum := (hp.map _).sum_nat
  rw [this]
  generalize S.length = m
  clear this hp hc hn
  induction m with
  | zero => simp
  | succ m ih =>
    rw [List.range'_concat]
    simp only [List.map_append, List.sum_append, ih, List.map_cons, List.map_nil, List.sum_cons, List.sum_nil, Nat.one_mul,
      Nat.add_zero]
    have h1 : 2 ^ f ≤ 2 ^ (f + m) := Nat.pow_le_pow_right (by omega) (by omega)
    have h2 : 2 ^ (f + (m + 1)) = 2 * 2 ^ (f + m) := by rw [← Nat.add_assoc, Nat.pow_succ]; omega
    omega

/-- Lanes placed in bucket `b`. -/
def lanesIn (ok : List Bool) (pos : List Pos) (b : Nat) : List Nat :=
  (List.range ok.length).filter fun i => ok.getD i false && decide ((pos.getD i default).bucket = b)

/-- Their slots. -/
def slotsIn (ok : List Bool) (pos : List Pos) (b : Nat) : List Nat :=
  (lanesIn ok pos b).map fun i => (pos.getD i default).slot

theorem mem_lanesIn {ok : List Bool} {pos : List Pos} {b i : Nat} :
    i ∈ lanesIn ok pos b ↔ ok.getD i false = true ∧ (pos.getD i default).bucket = b := by
  unfold lanesIn
  rw [List.mem_filter]
  simp only [List.mem_range, Bool.and_eq_true, decide_eq_true_eq]
  exact ⟨fun h => h.2, fun h => ⟨getD_true_lt h.1, h⟩⟩

theorem mem_slotsIn {ok : List Bool} {pos : List Pos} {b s : Nat} :
    s ∈ slotsIn ok pos b ↔ ∃ i, ok.getD i false = true ∧ pos.getD i default = ⟨b, s⟩ := by
  unfold slotsIn
  simp only [List.mem_map, mem_lanesIn]
  constructor
  · rintro ⟨i, ⟨h1, h2⟩, h3⟩
    refine ⟨i, h1, ?_⟩
    cases hp : pos.getD i default; rw [hp] at h2 h3; simp only at h2 h3; rw [h2, h3]
  · rintro ⟨i, h1, h2⟩; exact ⟨i, ⟨h1, by rw [h2]⟩, by rw [h2]⟩

/-- A batch of placed lanes: what every reservation scheme must guarantee. -/
structure Placed (H : Hasher α) (T : Table α) (xs : List α) (ok : List Bool) (pos : List Pos) : Prop where
  len : ok.length = xs.length
  range : ∀ i, ok.getD i false = true → (pos.getD i default).bucket < T.cap ∧
    fillOf T (pos.getD i default).bucket ≤ (pos.getD i default).slot ∧ (pos.getD i default).slot < T.bs
  inj : ∀ i k, ok.getD i false = true → ok.getD k false = true → pos.getD i default = pos.getD k default → i = k
  down : ∀ b s, (∃ i, ok.getD i false = true ∧ pos.getD i default = ⟨b, s⟩) → ∀ s', fillOf T b ≤ s' → s' < s →
    ∃ i, ok.getD i false = true ∧ pos.getD i default = ⟨b, s'⟩
  path : ∀ i x, ok.getD i false = true → xs[i]? = some x → ∃ j, path H T x j = (pos.getD i default).bucket ∧
    ∀ l, l < j → ∀ s, fillOf T (path H T x l) ≤ s → s < T.bs →
      ∃ k, ok.getD k false = true ∧ pos.getD k default = ⟨HashTable.path H T x l, s⟩

variable {xs : List α} {ok : List Bool} {pos : List Pos}

theorem Placed.slots_nodup (hp : Placed H T xs ok pos) (b : Nat) : (slotsIn ok pos b).Nodup := by
  unfold slotsIn
  have hn : (lanesIn ok pos b).Nodup := List.Pairwise.filter _ List.nodup_range
  rw [List.nodup_iff_pairwise_ne, List.pairwise_map]
  rw [List.nodup_iff_pairwise_ne] at hn
  refine List.Pairwise.imp_of_mem ?_ hn
  intro i k hi hk hne he
  rw [mem_lanesIn] at hi hk
  apply hne
  apply hp.inj i k hi.1 hk.1
  cases h1 : pos.getD i default; cases h2 : pos.getD k default
  rw [h1] at hi he; rw [h2] at hk he
  simp only at hi hk he
  rw [hi.2, hk.2, he]

theorem Placed.slots_iff (hp : Placed H T xs ok pos) (b s : Nat) :
    s ∈ slotsIn ok pos b ↔ fillOf T b ≤ s ∧ s < fillOf T b + (slotsIn ok pos b).length := by
  apply contiguous (hp.slots_nodup b)
  · intro s hs
    obtain ⟨i, h1, h2⟩ := mem_slotsIn.1 hs
    have := (hp.range i h1).2.1
    rw [h2] at this; exact this
  · intro s hs s' h1 h2
    exact mem_slotsIn.2 (hp.down b s (mem_slotsIn.1 hs) s' h1 h2)

theorem Placed.fill_le (hp : Placed H T xs ok pos) (hi : Inv H T) {b : Nat} (hb : b < T.cap) :
    fillOf T b + (slotsIn ok pos b).length ≤ T.bs := by
  rcases Nat.eq_zero_or_pos (slotsIn ok pos b).length with h | h
  · have := hi.fill_le b hb; omega
  · have hm : fillOf T b + (slotsIn ok pos b).length - 1 ∈ slotsIn ok pos b := (hp.slots_iff b _).2 (by omega)
    obtain ⟨i, h1, h2⟩ := mem_slotsIn.1 hm
    have := (hp.range i h1).2.2
    rw [h2] at this; simp only at this; omega

/-- Every slot in the path before is taken, so those buckets are full in the new table; and a path position below
`_capacity` exists. -/
theorem Placed.path_ok (hp : Placed H T xs ok pos) (hi : Inv H T) {i : Nat} {x : α} (hok : ok.getD i false = true)
    (hx : xs[i]? = some x) : ∃ j, j < T.cap ∧ HashTable.path H T x j = (pos.getD i default).bucket ∧
      ∀ l, l < j → fillOf T (HashTable.path H T x l) + (slotsIn ok pos (HashTable.path H T x l)).length = T.bs := by
  have hsh := hi.toShape
  obtain ⟨j, hj, hheld⟩ := hp.path i x hok hx
  have hfull : ∀ l, l < j → fillOf T (HashTable.path H T x l) + (slotsIn ok pos (HashTable.path H T x l)).length = T.bs := by
    intro l hl
    have hb := hsh.path_lt' H x l
    have h1 := hp.fill_le hi hb
    have h2 := hi.fill_le _ hb
    apply Classical.byContradiction
    intro hne
    have hm : fillOf T (HashTable.path H T x l) + (slotsIn ok pos (HashTable.path H T x l)).length ∈
        slotsIn ok pos (HashTable.path H T x l) :=
      mem_slotsIn.2 (hheld l hl _ (by omega) (by omega))
    have := ((hp.slots_iff _ _).1 hm).2
    omega
  by_cases hjc : j < T.cap
  · exact ⟨j, hjc, hj, hfull⟩
  · obtain ⟨p, hp1, hp2⟩ := hsh.path_surj H x (hsh.path_lt' H x j)
    exact ⟨p, hp1, by rw [hp2, hj], fun l hl => hfull l (by omega)⟩

/-- Scatter index of lane `i` (`_scatter_safe_indices`, insert.py:29-39). -/
def safeIdx (T : Table α) (ok : List Bool) (pos : List Pos) : List Nat :=
  tab ok.length fun i => if ok.getD i false then flat T (pos.getD i default).bucket (pos.getD i default).slot
    else T.fps.length

theorem safeIdx_iff (hi : Inv H T) (hp : Placed H T xs ok pos) {i b s : Nat} (hb : b < T.cap) (hs : s < T.bs) :
    (safeIdx T ok pos)[i]? = some (b * T.bs + s) ↔ ok.getD i false = true ∧ pos.getD i default = ⟨b, s⟩ := by
  have hsh := hi.toShape
  unfold safeIdx
  rw [tab_getElem?]
  constructor
  · intro h
    split at h
    · rename_i hin
      simp only [Option.some.injEq] at h
      cases hok : ok.getD i false with
      | true =>
        rw [hok, if_pos rfl] at h
        have hr := hp.range i hok
        rw [hsh.flat_eq hr.1 (by omega)] at h
        obtain ⟨e1, e2⟩ := Shape.flat_inj hr.2.2 hs h
        refine ⟨rfl, ?_⟩
        cases h1 : pos.getD i default; rw [h1] at e1 e2; simp only at e1 e2; rw [e1, e2]
      | false =>
        rw [hok] at h
        simp only [Bool.false_eq_true, if_false] at h
        have := hsh.flat_bound' hb (Nat.le_of_lt hs)
        have := hsh.len_fps
        omega
    · cases h
  · rintro ⟨h1, h2⟩
    rw [if_pos (getD_true_lt h1), h1, if_pos rfl, h2, hsh.flat_eq hb (Nat.le_of_lt hs)]

theorem tab_self (l : List Bool) : (List.range l.length).map (fun i => l.getD i false) = l := by
  apply List.ext_getElem (by simp)
  intro i h1 h2
  simp [List.getElem?_eq_getElem h2]

theorem countP_lanes (ok : List Bool) : ok.countP id = ((List.range ok.length).filter fun i => ok.getD i false).length := by
  conv => lhs; rw [← tab_self ok]
  rw [List.countP_map, List.countP_eq_length_filter]; rfl

theorem sum_by_bucket (c : Nat) (L : List Nat) (bk : Nat → Nat) (h : ∀ i ∈ L, bk i < c) :
    ((List.range c).map fun b => (L.filter fun i => decide (bk i = b)).length).sum = L.length := by
  induction L with
  | nil => rw [sum_map_zero]; · rfl
           · intro b _; rfl
  | cons a L ih =>
    rw [sum_update (f := fun b => (L.filter fun i => decide (bk i = b)).length) (b := bk a) c (h a (by simp)),
      ih (fun i hi => h i (by simp [hi]))]
    · rfl
    · simp
    · intro b hb
      rw [List.filter_cons_of_neg]
      simp; omega

theorem sum_lengths {c : Nat} (hr : ∀ i, ok.getD i false = true → (pos.getD i default).bucket < c) :
    ((List.range c).map fun b => (slotsIn ok pos b).length).sum = ok.countP id := by
  rw [countP_lanes, ← sum_by_bucket c _ (fun i => (pos.getD i default).bucket)]
  · congr 1
    apply List.map_congr_left
    intro b _
    unfold slotsIn lanesIn
    rw [List.length_map, List.filter_filter]
    congr 1
    apply List.filter_congr
    intro i _
    rw [Bool.and_comm]
  · intro i hi
    rw [List.mem_filter] at hi
    exact hr i hi.2

theorem sum_add (f g : Nat → Nat) (n : Nat) :
    ((List.range n).map fun b => f b + g b).sum = ((List.range n).map f).sum + ((List.range n).map g).sum := by
  induction n with
  | zero => rfl
  | succ n ih =>
    simp only [List.range_succ, List.map_append, List.sum_append, ih, List.map_cons, List.map_nil, List.sum_cons,
      List.sum_nil]
    omega

/-- The occupancy word after adding the bits of the placed lanes. -/
theorem Placed.occ_sum (hp : Placed H T xs ok pos) (b : Nat) :
    2 ^ fillOf T b - 1 + ((slotsIn ok pos b).map (2 ^ ·)).sum = 2 ^ (fillOf T b + (slotsIn ok pos b).length) - 1 := by
  rw [sum_pow_contiguous (hp.slots_nodup b) (hp.slots_iff b)]
  have h1 : 2 ^ fillOf T b ≤ 2 ^ (fillOf T b + (slotsIn ok pos b).length) := Nat.pow_le_pow_right (by omega) (by omega)
  have : 0 < 2 ^ fillOf T b := Nat.two_pow_pos _
  omega

/-- A table updated according to a placed batch extends the old one by exactly the placed lanes. -/
theorem Placed.ext (hi : Inv H T) (hp : Placed H T xs ok pos)
    (habs : ∀ i x, ok.getD i false = true → xs[i]? = some x → ∀ b s, b < T.cap → ¬ Has T x b s)
    (hdist : ∀ i k x, ok.getD i false = true → ok.getD k false = true → xs[i]? = some x → xs[k]? = some x → i = k)
    (hcap : T'.cap = T.cap) (hbs : T'.bs = T.bs) (hmp : T'.maxProbes = T.maxProbes)
    (htab : T'.table = scatterSet T.table (safeIdx T ok pos) xs)
    (hfps : T'.fps = scatterSet T.fps (safeIdx T ok pos) (xs.map H.fp))
    (hfl : T'.fill.length = T.fill.length) (hol : T'.occ.length = T.occ.length)
    (hfill : ∀ b, b < T.cap → fillOf T' b = fillOf T b + (slotsIn ok pos b).length)
    (hsize : T'.size = (T.size + ok.countP id) % 2 ^ 32)
    (hocc : T.bs ≤ 32 → ∀ b, b < T.cap → T'.occ.getD b 0 = 2 ^ (fillOf T b + (slotsIn ok pos b).length) - 1) :
    Ext H T T' (fun x b s => ∃ i, ok.getD i false = true ∧ xs[i]? = some x ∧ pos.getD i default = ⟨b, s⟩) := by
  have hsh := hi.toShape
  have hitem : ∀ i x b s, ok.getD i false = true → xs[i]? = some x → pos.getD i default = ⟨b, s⟩ →
      item T' b s = some x ∧ T'.fps.getD (b * T.bs + s) 0 = H.fp x := by
    intro i x b s h1 h2 h3
    have hr := hp.range i h1
    rw [h3] at hr
    have hsi := (safeIdx_iff hi hp (i := i) hr.1 hr.2.2).2 ⟨h1, h3⟩
    have hu : ∀ q, (safeIdx T ok pos)[q]? = some (b * T.bs + s) → q = i := by
      intro q hq
      obtain ⟨q1, q2⟩ := (safeIdx_iff hi hp hr.1 hr.2.2).1 hq
      exact hp.inj q i q1 h1 (by rw [q2, h3])
    have hbd := hsh.flat_bound' hr.1 (Nat.le_of_lt hr.2.2)
    constructor
    · unfold item
      rw [hbs, htab]
      exact scatterSet_mem _ _ _ i x _ hsi h2 hu (by rw [hsh.len_table]; exact hbd)
    · rw [hfps, List.getD_eq_getElem?_getD,
        scatterSet_mem _ _ _ i (H.fp x) _ hsi (by rw [List.getElem?_map, h2]; rfl) hu (by rw [hsh.len_fps]; exact hbd)]
      rfl
  have hxs : ∀ i, ok.getD i false = true → ∃ x, xs[i]? = some x := by
    intro i h
    have := getD_true_lt h
    rw [hp.len] at this
    exact ⟨_, List.getElem?_eq_getElem this⟩
  refine { cap_eq := hcap, bs_eq := hbs, mp_eq := hmp, len_table := by rw [htab]; simp, len_fps := by rw [hfps]; simp,
           len_fill := hfl, len_occ := hol, fill_mono := ?_, new_ex := ?_, new_ok := ?_, new_path := ?_, new_abs := ?_,
           new_inj := ?_, old := ?_, size_ok := ?_, occ_ok := ?_ }
  · intro b hb
    rw [hfill b hb]
    exact ⟨by omega, hp.fill_le hi hb⟩
  · intro b s hb h1 h2
    rw [hfill b hb] at h2
    obtain ⟨i, e1, e2⟩ := mem_slotsIn.1 ((hp.slots_iff b s).2 ⟨h1, h2⟩)
    obtain ⟨x, hx⟩ := hxs i e1
    exact ⟨x, i, e1, hx, e2⟩
  · rintro x b s ⟨i, h1, h2, h3⟩
    have hr := hp.range i h1
    rw [h3] at hr
    refine ⟨hr.1, hr.2.1, ?_, hitem i x b s h1 h2 h3⟩
    rw [hfill b hr.1]
    exact ((hp.slots_iff b s).1 (mem_slotsIn.2 ⟨i, h1, h3⟩)).2
  · rintro x b s ⟨i, h1, h2, h3⟩
    obtain ⟨j, hj1, hj2, hj3⟩ := hp.path_ok hi h1 h2
    refine ⟨j, hj1, by rw [hj2, h3], fun l hl => ?_⟩
    rw [hfill _ (hsh.path_lt' H x l)]; exact hj3 l hl
  · rintro x b s ⟨i, h1, h2, h3⟩ b' s' hb'
    exact habs i x h1 h2 b' s' hb'
  · rintro x b s b' s' ⟨i, h1, h2, h3⟩ ⟨k, k1, k2, k3⟩
    have := hdist i k x h1 k1 h2 k2
    subst this
    rw [h3] at k3
    cases k3; exact ⟨rfl, rfl⟩
  · intro b s hb hs
    have hsb : s < T.bs := by have := hi.fill_le b hb; omega
    have hnm : b * T.bs + s ∉ safeIdx T ok pos := by
      intro hm
      obtain ⟨i, hi'⟩ := List.getElem?_of_mem hm
      obtain ⟨h1, h2⟩ := (safeIdx_iff hi hp hb hsb).1 hi'
      have := (hp.range i h1).2.1
      rw [h2] at this; simp only at this; omega
    constructor
    · unfold item; rw [hbs, htab, scatterSet_not_mem _ _ _ _ hnm]
    · rw [hfps, List.getD_eq_getElem?_getD, scatterSet_not_mem _ _ _ _ hnm, List.getD_eq_getElem?_getD]
  · have e : ((List.range T.cap).map (fillOf T')) =
        ((List.range T.cap).map fun b => fillOf T b + (slotsIn ok pos b).length) := by
      apply List.map_congr_left
      intro b hb; exact hfill b (List.mem_range.1 hb)
    have hsum := sum_lengths (pos := pos) (c := T.cap) (fun i h => (hp.range i h).1)
    rw [e, sum_add, hsum, ← hi.size_ok, hsize]
    apply Nat.mod_eq_of_lt
    -- total number of occupied slots is at most cap * bs
    have hle : ∀ n, n ≤ T.cap → ((List.range n).map fun b => fillOf T b + (slotsIn ok pos b).length).sum ≤ n * T.bs := by
      intro n
      induction n with
      | zero => simp
      | succ n ih =>
        intro hn
        simp only [List.range_succ, List.map_append, List.sum_append, List.map_cons, List.map_nil, List.sum_cons,
          List.sum_nil]
        have := ih (by omega)
        have := hp.fill_le hi (b := n) (by omega)
        rw [Nat.add_mul]; omega
    have := hle T.cap (Nat.le_refl _)
    rw [sum_add, hsum, ← hi.size_ok] at this
    have := size_lt hi
    omega
  · intro hb b hb'
    rw [hocc hb b hb', hfill b hb']

/-! ## `x.at[idx].add(v)` -/

@[simp] theorem scatterAdd_length (l idx vals : List Nat) : (scatterAdd l idx vals).length = l.length := by
  unfold scatterAdd
  generalize idx.zip vals = z
  induction z generalizing l with
  | nil => rfl
  | cons a z ih => simp only [List.foldl_cons]; rw [ih]; simp

theorem scatterAdd_getD (l idx vals : List Nat) (b : Nat) (hb : b < l.length) :
    (scatterAdd l idx vals).getD b 0 =
      l.getD b 0 + (((idx.zip vals).filter fun p => decide (p.1 = b)).map (·.2)).sum := by
  unfold scatterAdd
  generalize idx.zip vals = z
  induction z generalizing l with
  | nil => simp
  | cons a z ih =>
    simp only [List.foldl_cons]
    rw [ih _ (by simpa using hb)]
    have : (l.modify a.1 (· + a.2)).getD b 0 = l.getD b 0 + if a.1 = b then a.2 else 0 := by
      rw [List.getD_eq_getElem?_getD, List.getElem?_modify, List.getD_eq_getElem?_getD, List.getElem?_eq_getElem hb]
      split <;> simp_all
    rw [this]
    by_cases h : a.1 = b
    · rw [List.filter_cons_of_pos (by simpa using h)]; simp [h]; omega
    · rw [List.filter_cons_of_neg (by simpa using h)]; simp [h]

/-- Per-bucket sum of lane values that vanish outside `ok`. -/
theorem sum_zip_lanes (pos : List Pos) (f : Nat → Nat) (n b : Nat) (hl : pos.length = n) :
    ((((pos.map (·.bucket)).zip (tab n f)).filter fun p => decide (p.1 = b)).map (·.2)).sum =
      (((List.range n).filter fun i => decide ((pos.getD i default).bucket = b)).map f).sum := by
  have e : (pos.map (·.bucket)).zip (tab n f) = (List.range n).map fun i => ((pos.getD i default).bucket, f i) := by
    apply List.ext_getElem (by simp [hl])
    intro i h1 h2
    have hi : i < pos.length := by simp at h1; omega
    simp [tab, List.getElem?_eq_getElem hi]
  rw [e, List.filter_map, List.map_map]
  rfl

theorem sum_filter_zero (L : List Nat) (p : Nat → Bool) (f : Nat → Nat) (h : ∀ i ∈ L, p i = false → f i = 0) :
    (L.map f).sum = ((L.filter p).map f).sum := by
  induction L with
  | nil => rfl
  | cons a L ih =>
    have := ih (fun i hi => h i (by simp [hi]))
    cases hp : p a with
    | true => rw [List.filter_cons_of_pos hp]; simp [this]
    | false => rw [List.filter_cons_of_neg (by simp [hp])]; simp [this, h a (by simp) hp]

theorem sum_lanes (pos : List Pos) (ok : List Bool) (f : Nat → Nat) (b : Nat) (hl : pos.length = ok.length)
    (hf : ∀ i, ok.getD i false = false → f i = 0) :
    ((((pos.map (·.bucket)).zip (tab ok.length f)).filter fun p => decide (p.1 = b)).map (·.2)).sum =
      ((lanesIn ok pos b).map f).sum := by
  rw [sum_zip_lanes pos f _ b hl, sum_filter_zero _ (fun i => ok.getD i false) f (fun i _ h => hf i h), List.filter_filter]
  rfl

theorem sum_ones (L : List Nat) : (L.map fun _ => 1).sum = L.length := by
  induction L with
  | nil => rfl
  | cons a L ih => simp [ih]; omega

end HashTable
