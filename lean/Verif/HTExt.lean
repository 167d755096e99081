import Verif.HTLookup

/-!
# Adding items to a table preserves the invariant

`Ext H T T' N` describes any insertion step: `N x b s` says that `x` was newly put into slot `s` of bucket `b`.  It is
established for single insert, for the XLA batch insert and for the Pallas and Triton reservation schemes.
-/

namespace HashTable

open Jax SortGroup Dedupe

variable {α : Type u} [DecidableEq α]

/-- `T'` is `T` plus the items described by `N`. -/
structure Ext (H : Hasher α) (T T' : Table α) (N : α → Nat → Nat → Prop) : Prop where
  cap_eq : T'.cap = T.cap
  bs_eq : T'.bs = T.bs
  mp_eq : T'.maxProbes = T.maxProbes
  len_table : T'.table.length = T.table.length
  len_fps : T'.fps.length = T.fps.length
  len_fill : T'.fill.length = T.fill.length
  len_occ : T'.occ.length = T.occ.length
  fill_mono : ∀ b, b < T.cap → fillOf T b ≤ fillOf T' b ∧ fillOf T' b ≤ T.bs
  new_ex : ∀ b s, b < T.cap → fillOf T b ≤ s → s < fillOf T' b → ∃ x, N x b s
  new_ok : ∀ x b s, N x b s → b < T.cap ∧ fillOf T b ≤ s ∧ s < fillOf T' b ∧ item T' b s = some x ∧
    T'.fps.getD (b * T.bs + s) 0 = H.fp x
  new_path : ∀ x b s, N x b s → ∃ j, j < T.cap ∧ path H T x j = b ∧ ∀ i, i < j → fillOf T' (path H T x i) = T.bs
  new_abs : ∀ x b s, N x b s → ∀ b' s', b' < T.cap → ¬ Has T x b' s'
  new_inj : ∀ x b s b' s', N x b s → N x b' s' → b = b' ∧ s = s'
  old : ∀ b s, b < T.cap → s < fillOf T b → item T' b s = item T b s ∧
    T'.fps.getD (b * T.bs + s) 0 = T.fps.getD (b * T.bs + s) 0
  size_ok : T'.size = ((List.range T.cap).map (fillOf T')).sum
  occ_ok : T.bs ≤ 32 → ∀ b, b < T.cap → T'.occ.getD b 0 = 2 ^ fillOf T' b - 1

variable {H : Hasher α} {T T' : Table α} {N : α → Nat → Nat → Prop}

theorem path_congr (hc : T'.cap = T.cap) (x : α) (j : Nat) : path H T' x j = path H T x j := by
  induction j with
  | zero => simp [path, start, hc]
  | succ j ih => simp [path, next, step, hc, ih]

theorem Ext.has_iff (he : Ext H T T' N) {x : α} {b s : Nat} (hb : b < T.cap) :
    Has T' x b s ↔ Has T x b s ∨ N x b s := by
  constructor
  · rintro ⟨h1, h2⟩
    rcases Nat.lt_or_ge s (fillOf T b) with h | h
    · left; exact ⟨h, by rw [← (he.old b s hb h).1]; exact h2⟩
    · right
      obtain ⟨y, hy⟩ := he.new_ex b s hb h h1
      have := (he.new_ok y b s hy).2.2.2.1
      rw [this] at h2
      cases h2; exact hy
  · rintro (⟨h1, h2⟩ | h)
    · exact ⟨Nat.lt_of_lt_of_le h1 (he.fill_mono b hb).1, by rw [(he.old b s hb h1).1]; exact h2⟩
    · have := he.new_ok x b s h
      exact ⟨this.2.2.1, this.2.2.2.1⟩

theorem Ext.shape (he : Ext H T T' N) (hs : Shape T) : Shape T' where
  pow2 := by rw [he.cap_eq]; exact hs.pow2
  bs_pos := by rw [he.bs_eq]; exact hs.bs_pos
  bs_le := by rw [he.bs_eq]; exact hs.bs_le
  small := by rw [he.bs_eq, he.cap_eq]; exact hs.small
  len_table := by rw [he.bs_eq, he.cap_eq, he.len_table]; exact hs.len_table
  len_fps := by rw [he.bs_eq, he.cap_eq, he.len_fps]; exact hs.len_fps
  len_fill := by rw [he.cap_eq, he.len_fill]; exact hs.len_fill
  len_occ := by rw [he.cap_eq, he.len_occ]; exact hs.len_occ
  probes := by rw [he.bs_eq, he.cap_eq, he.mp_eq]; exact hs.probes

/-- The main preservation lemma. -/
theorem Ext.inv (he : Ext H T T' N) (hi : Inv H T) : Inv H T' := by
  have hsplit : ∀ b s x, b < T'.cap → s < fillOf T' b → item T' b s = some x → b < T.cap ∧ (Has T x b s ∨ N x b s) := by
    intro b s x hb hs hx
    rw [he.cap_eq] at hb
    exact ⟨hb, (he.has_iff hb).1 ⟨hs, hx⟩⟩
  refine { he.shape hi.toShape with fill_le := ?_, fp_ok := ?_, path_ok := ?_, distinct := ?_, size_ok := ?_, occ_ok := ?_ }
  · intro b hb
    rw [he.cap_eq] at hb; rw [he.bs_eq]
    exact (he.fill_mono b hb).2
  · intro b s x hb hs hx
    obtain ⟨hb, h | h⟩ := hsplit b s x hb hs hx
    · rw [he.bs_eq, (he.old b s hb h.1).2]; exact hi.fp_ok b s x hb h.1 h.2
    · rw [he.bs_eq]; exact (he.new_ok x b s h).2.2.2.2
  · intro b s x hb hs hx
    simp only [path_congr he.cap_eq, he.cap_eq, he.bs_eq]
    obtain ⟨hb, h | h⟩ := hsplit b s x hb hs hx
    · obtain ⟨j, hj, hpj, hfull⟩ := hi.path_ok b s x hb h.1 h.2
      refine ⟨j, hj, hpj, fun i hij => ?_⟩
      have := he.fill_mono _ (hi.toShape.path_lt' H x i)
      have := hfull i hij
      omega
    · exact he.new_path x b s h
  · intro b s b' s' x hb hs hb' hs' hx hx'
    obtain ⟨hb, h | h⟩ := hsplit b s x hb hs hx <;> obtain ⟨hb', h' | h'⟩ := hsplit b' s' x hb' hs' hx'
    · exact hi.distinct b s b' s' x hb h.1 hb' h'.1 h.2 h'.2
    · exact absurd h (he.new_abs x b' s' h' b s hb)
    · exact absurd h' (he.new_abs x b s h b' s' hb')
    · exact he.new_inj x b s b' s' h h'
  · rw [he.cap_eq]; exact he.size_ok
  · rw [he.bs_eq, he.cap_eq]; exact he.occ_ok

theorem getD_replicate_zero (n i : Nat) : (List.replicate n 0).getD i 0 = 0 := by
  rw [List.getD_eq_getElem?_getD, List.getElem?_replicate]; split <;> rfl

theorem fillOf_build (d : α) (capacity bs mult : Nat) (mp : Option Nat) (b : Nat) :
    fillOf (build d capacity bs mult mp) b = 0 := getD_replicate_zero _ _

theorem sum_map_zero {f : Nat → Nat} (l : List Nat) (h : ∀ b ∈ l, f b = 0) : (l.map f).sum = 0 := by
  induction l with
  | nil => rfl
  | cons a l ih => simp only [List.map_cons, List.sum_cons]; rw [h a (by simp), ih (fun b hb => h b (by simp [hb]))]

/-- A freshly built table satisfies the invariant. -/
theorem build_inv (H : Hasher α) (d : α) (capacity bs mult : Nat) (mp : Option Nat)
    (h1 : 1 ≤ bs) (h2 : bs ≤ 255) (h3 : (internalCap capacity bs mult + 1) * bs < 2 ^ 31)
    (h4 : ∀ m, mp = some m → internalCap capacity bs mult * bs ≤ m) : Inv H (build d capacity bs mult mp) where
  pow2 := build_cap_pow2 d capacity bs mult mp
  bs_pos := h1
  bs_le := h2
  small := h3
  len_table := by simp [build]
  len_fps := by simp [build]
  len_fill := by simp [build]
  len_occ := by simp [build]
  probes := by
    cases mp with
    | none => simp [build]
    | some m => exact h4 m rfl
  fill_le := by intro b _; rw [fillOf_build]; omega
  fp_ok := by intro b s x _ hs; rw [fillOf_build] at hs; omega
  path_ok := by intro b s x _ hs; rw [fillOf_build] at hs; omega
  distinct := by intro b s b' s' x _ hs; rw [fillOf_build] at hs; omega
  size_ok := by
    rw [sum_map_zero]
    · rfl
    · intro b _; exact fillOf_build d capacity bs mult mp b
  occ_ok := by intro _ b _; rw [fillOf_build]; exact getD_replicate_zero _ _

/-! ## Single insert -/

theorem getD_set_eq {l : List Nat} {i : Nat} {v : Nat} (h : i < l.length) : (l.set i v).getD i 0 = v := by
  rw [List.getD_eq_getElem?_getD, List.getElem?_set_self h]; rfl

theorem getD_set_ne {l : List Nat} {i j : Nat} {v : Nat} (h : i ≠ j) : (l.set i v).getD j 0 = l.getD j 0 := by
  rw [List.getD_eq_getElem?_getD, List.getElem?_set_ne h, List.getD_eq_getElem?_getD]

theorem sum_update {f g : Nat → Nat} {b : Nat} (n : Nat) (hb : b < n) (h1 : g b = f b + 1) (h2 : ∀ i, i ≠ b → g i = f i) :
    ((List.range n).map g).sum = ((List.range n).map f).sum + 1 := by
  induction n with
  | zero => omega
  | succ n ih =>
    simp only [List.range_succ, List.map_append, List.sum_append, List.map_cons, List.map_nil, List.sum_cons, List.sum_nil]
    by_cases hn : b = n
    · subst hn
      have : ((List.range b).map g) = ((List.range b).map f) := by
        apply List.map_congr_left
        intro a ha; exact h2 a (by have := List.mem_range.1 ha; omega)
      rw [this, h1]; omega
    · rw [ih (by omega), h2 n (by omega)]; omega

theorem sum_fill_le (hi : Inv H T) : T.size ≤ T.cap * T.bs := by
  rw [hi.size_ok]
  have : ∀ n, n ≤ T.cap → ((List.range n).map (fillOf T)).sum ≤ n * T.bs := by
    intro n
    induction n with
    | zero => simp
    | succ n ih =>
      intro hn
      simp only [List.range_succ, List.map_append, List.sum_append, List.map_cons, List.map_nil, List.sum_cons,
        List.sum_nil]
      have := ih (by omega)
      have := hi.fill_le n (by omega)
      rw [Nat.add_mul]; omega
  exact this _ (Nat.le_refl _)

theorem two_pow_or (f : Nat) : (2 ^ f - 1) ||| 2 ^ f = 2 ^ (f + 1) - 1 := by
  apply Nat.eq_of_testBit_eq
  intro i
  rw [Nat.testBit_or, Nat.testBit_two_pow_sub_one, Nat.testBit_two_pow_sub_one, Nat.testBit_two_pow]
  by_cases h1 : i < f <;> by_cases h2 : f = i <;> by_cases h3 : i < f + 1 <;> simp [h1, h2, h3] <;> omega

theorem size_lt (hi : Inv H T) : T.cap * T.bs < 2 ^ 31 := by
  have := hi.toShape.small; rw [Nat.add_mul] at this; omega

/-- Inserting an absent item at the first free position on its path. -/
theorem insert_ext (hi : Inv H T) (x : α) (habs : (lookupBucket H T x).2 = false)
    (hroom : ∃ b, b < T.cap ∧ fillOf T b < T.bs) :
    (insert H T x).2.1 = true ∧
    ∃ b s, b < T.cap ∧ s < T.bs ∧ (insert H T x).2.2 = b * T.bs + s ∧
      Ext H T (insert H T x).1 (fun y b' s' => y = x ∧ b' = b ∧ s' = s) := by
  have hsh := hi.toShape
  have hnot : ∀ b s, b < T.cap → ¬ Has T x b s := by
    intro b s hb hh
    have := (lookupBucket_found hi x).1.2 ⟨b, s, hb, hh⟩
    rw [this] at habs; cases habs
  rcases lookupBucket_absent hi x habs with ⟨j, hj, hfull, hlt, hpos⟩ | ⟨hfull, _, _⟩
  · have hb := hsh.path_lt' H x j
    generalize hbe : path H T x j = b at *
    have hcan : (!(lookupBucket H T x).2 && decide (rd T.fill (lookupBucket H T x).1.1 ≤ (lookupBucket H T x).1.2)) = true := by
      rw [habs, hpos]; simp [hsh.rd_fill hb]
    have e : insert H T x = ({ T with
        table := scatterU1 T.table (flat T b (fillOf T b)) x
        fps := scatterU1 T.fps (flat T b (fillOf T b)) (H.fp x)
        fill := scatterU1 T.fill b (rd T.fill b + 1)
        size := (T.size + 1) % 2 ^ 32
        occ := if T.bs ≤ 32 then scatterU1 T.occ b (rd T.occ b ||| (2 ^ fillOf T b % 2 ^ 32)) else T.occ },
        true, flat T b (fillOf T b)) := by
      unfold insert
      simp only [hcan, if_true]
      simp only [hpos]
    have hfl : flat T b (fillOf T b) = b * T.bs + fillOf T b := hsh.flat_eq hb (by omega)
    have hfb : b * T.bs + fillOf T b < (T.cap + 1) * T.bs := hsh.flat_bound' hb (by omega)
    have hbf : b < T.fill.length := by rw [hsh.len_fill]; omega
    rw [e]
    refine ⟨rfl, b, fillOf T b, hb, hlt, hfl, ?_⟩
    have hfill : ∀ b', fillOf { T with
        table := scatterU1 T.table (flat T b (fillOf T b)) x
        fps := scatterU1 T.fps (flat T b (fillOf T b)) (H.fp x)
        fill := scatterU1 T.fill b (rd T.fill b + 1)
        size := (T.size + 1) % 2 ^ 32
        occ := if T.bs ≤ 32 then scatterU1 T.occ b (rd T.occ b ||| (2 ^ fillOf T b % 2 ^ 32)) else T.occ } b' =
        if b' = b then fillOf T b + 1 else fillOf T b' := by
      intro b'
      simp only [fillOf, scatterU1]
      rw [if_pos hbf]
      split
      · rename_i h; subst h; rw [getD_set_eq hbf, hsh.rd_fill hb]; rfl
      · rename_i h; rw [getD_set_ne (by omega)]
    constructor
    · rfl
    · rfl
    · rfl
    · simp
    · simp
    · simp
    · simp only; split <;> simp
    · intro b' hb'
      rw [hfill]
      split
      · rename_i h; subst h; omega
      · exact ⟨Nat.le_refl _, hi.fill_le b' hb'⟩
    · intro b' s hb' h1 h2
      rw [hfill] at h2
      split at h2
      · rename_i h; subst h; exact ⟨x, rfl, rfl, by omega⟩
      · omega
    · rintro y b' s ⟨rfl, rfl, rfl⟩
      rw [hfill]
      refine ⟨hb, Nat.le_refl _, by simp, ?_, ?_⟩
      · simp only [item, scatterU1]
        rw [if_pos (by rw [hfl, hsh.len_table]; exact hfb), hfl]
        rw [List.getElem?_set_self (by rw [hsh.len_table]; exact hfb)]
      · simp only [scatterU1]
        rw [if_pos (by rw [hfl, hsh.len_fps]; exact hfb), hfl]
        rw [getD_set_eq (by rw [hsh.len_fps]; exact hfb)]
    · rintro y b' s ⟨rfl, rfl, rfl⟩
      refine ⟨j, hj, hbe, fun i hij => ?_⟩
      rw [hfill]
      split
      · rename_i h; have := hfull i hij; rw [h] at this; omega
      · exact hfull i hij
    · rintro y b' s ⟨rfl, rfl, rfl⟩ b'' s'' hb''
      exact hnot b'' s'' hb''
    · rintro y b1 s1 b2 s2 ⟨_, rfl, rfl⟩ ⟨_, rfl, rfl⟩; exact ⟨rfl, rfl⟩
    · intro b' s hb' hs
      have hsb : s < T.bs := by have := hi.fill_le b' hb'; omega
      have hne : b * T.bs + fillOf T b ≠ b' * T.bs + s := by
        intro h
        have := Shape.flat_inj hlt hsb h
        obtain ⟨h1, h2⟩ := this
        subst h1; omega
      constructor
      · simp only [item, scatterU1]
        rw [if_pos (by rw [hfl, hsh.len_table]; exact hfb), hfl, List.getElem?_set_ne hne]
      · simp only [scatterU1]
        rw [if_pos (by rw [hfl, hsh.len_fps]; exact hfb), hfl, getD_set_ne hne]
    · simp only
      rw [sum_update (f := fillOf T) (b := b) T.cap hb]
      · rw [← hi.size_ok]
        have := sum_fill_le hi; have := size_lt hi
        omega
      · rw [hfill]; simp
      · intro i hib; rw [hfill, if_neg hib]
    · intro hbs b' hb'
      rw [hfill]
      simp only [if_pos hbs, scatterU1]
      have hlo : b < T.occ.length := by rw [hsh.len_occ]; omega
      rw [if_pos hlo]
      split
      · rename_i h; subst h
        rw [getD_set_eq hlo, hsh.rd_occ hb, hi.occ_ok hbs _ hb]
        have : 2 ^ fillOf T b' < 2 ^ 32 := Nat.pow_lt_pow_right (by omega) (by omega)
        rw [Nat.mod_eq_of_lt this, two_pow_or]
      · rename_i h; rw [getD_set_ne (by omega)]; exact hi.occ_ok hbs b' hb'
  · obtain ⟨b, hb, h⟩ := hroom
    have := hfull b hb; omega

/-- Nothing happens when the item is present or the table is full. -/
theorem insert_noop (hi : Inv H T) (x : α)
    (h : (lookupBucket H T x).2 = true ∨ ∀ b, b < T.cap → fillOf T b = T.bs) :
    (insert H T x).1 = T ∧ (insert H T x).2.1 = false := by
  have hsh := hi.toShape
  have hcan : (!(lookupBucket H T x).2 && decide (rd T.fill (lookupBucket H T x).1.1 ≤ (lookupBucket H T x).1.2)) = false := by
    cases hr : (lookupBucket H T x).2 with
    | true => rfl
    | false =>
      have hall : ∀ b, b < T.cap → fillOf T b = T.bs := by
        rcases h with h | h
        · rw [h] at hr; cases hr
        · exact h
      rcases lookupBucket_absent hi x hr with ⟨j, hj, _, hlt, _⟩ | ⟨_, hb, hs⟩
      · have := hall _ (hsh.path_lt' H x j); omega
      · rw [hs, hsh.rd_fill hb, hall _ hb]
        have := hsh.bs_pos
        simp; omega
  unfold insert
  simp only [hcan]
  simp

end HashTable
