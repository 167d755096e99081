import Verif.HTProps
import Verif.HTScan

/-!
# C72: buckets of 256 slots

`SLOT_IDX_DTYPE` is `uint8` (constants.py:4), and lookup casts the fill level of a bucket to it (lookup.py:47).  Nothing
restricts `bucket_size` (table.py:23-58, 88-119).  With 256 slots per bucket a full bucket therefore reads as an empty
one: none of its items is found any more and nothing can be added to it.  (The model is exact for 256 slots; for more,
`jnp.arange(bucket_size, dtype=uint8)` is not a permutation of the slots either, which is not modelled.)
-/

namespace HashTable

open Jax SortGroup Dedupe

variable {α : Type u} [DecidableEq α]

/-- Insert the items one by one; the table and the `inserted` flags. -/
def insertAll (H : Hasher α) : Table α → List α → Table α × List Bool
  | T, [] => (T, [])
  | T, x :: xs =>
    let r := insert H T x
    let q := insertAll H r.1 xs
    (q.1, r.2.1 :: q.2)

/-- A table of one bucket of 256 slots, the first ones holding `ys` in order. -/
structure One (T : Table α) (ys : List α) : Prop where
  cap : T.cap = 1
  bs : T.bs = 256
  mp : 0 < T.maxProbes
  size : T.size = ys.length
  fill : T.fill = [ys.length, 0]
  len : T.table.length = 512
  pre : ∀ (i : Nat) (y : α), ys[i]? = some y → T.table[i]? = some y

theorem one_start (H : Hasher α) {T : Table α} {ys : List α} (h : One T ys) (x : α) : start H T x = 0 := by
  simp [start, h.cap]

/-- Nothing is found in a bucket if every slot below the limit differs from the item. -/
theorem scan_none (H : Hasher α) (T : Table α) (x : α) (b : Nat)
    (h : ∀ s, s < T.bs → s < limit T b → gatherU T.table (flat T b s) ≠ some x) :
    (scanBucket H T x b).1 = false :=
  scan_noneB H T x b fun s h1 h2 => beq_false_of_ne (h s h1 h2)

/-- **C72, any table.**  In a table with 256 slots per bucket a full start bucket reads as empty: no item is found, and
nothing is inserted. -/
theorem full_bucket_reads_empty (H : Hasher α) (T : Table α) (x : α) (hbs : T.bs = 256) (hmp : 0 < T.maxProbes)
    (hfull : rd T.fill (start H T x) = 256) :
    (lookup H T x).2 = false ∧ (insert H T x).1 = T ∧ (insert H T x).2.1 = false := by
  have hl : limit T (start H T x) = 0 := by unfold limit; rw [hfull]
  have hb := lookup_stop H T x hmp (scan_none H T x _ (fun s _ h => by omega)) (by omega)
  refine ⟨by unfold lookup; rw [hb], ?_, ?_⟩ <;>
  · unfold insert
    dsimp only
    rw [hb]
    dsimp only
    rw [hl, hfull]
    rfl

theorem one_insert (H : Hasher α) {T : Table α} {ys : List α} (h : One T ys) (x : α) (hx : x ∉ ys)
    (hl : ys.length < 256) : (insert H T x).2.1 = true ∧ One (insert H T x).1 (ys ++ [x]) := by
  have hst := one_start H h x
  have hrd : rd T.fill 0 = ys.length := by simp [rd, h.fill]
  have hlim : limit T 0 = ys.length := by unfold limit; rw [hrd]; omega
  have hflat : ∀ s, s < 256 → flat T 0 s = s := by intro s hs; unfold flat; rw [h.bs]; omega
  have hb : lookupBucket H T x = ((0, ys.length), false) := by
    have := lookup_stop H T x h.mp (by
      rw [hst]
      apply scan_none
      intro s hs1 hs2
      rw [hlim] at hs2
      rw [hflat s (by omega), gatherU_of_lt _ _ (by rw [h.len]; omega),
        h.pre s _ (List.getElem?_eq_getElem hs2)]
      intro hc
      exact hx (by rw [← Option.some.inj hc]; exact List.getElem_mem hs2)) (by rw [hst, hlim, h.bs]; omega)
    rw [hst, hlim] at this
    exact this
  have hins : insert H T x = ({ T with
        table := scatterU1 T.table ys.length x
        fps := scatterU1 T.fps ys.length (H.fp x)
        fill := scatterU1 T.fill 0 (ys.length + 1)
        size := (T.size + 1) % 2 ^ 32 }, true, ys.length) := by
    unfold insert
    dsimp only
    rw [hb]
    dsimp only
    rw [hrd, hflat _ hl, if_neg (show ¬ T.bs ≤ 32 by rw [h.bs]; omega)]
    simp
  rw [hins]
  refine ⟨rfl, { cap := h.cap, bs := h.bs, mp := h.mp, size := ?_, fill := ?_, len := ?_, pre := ?_ }⟩
  · show (T.size + 1) % 2 ^ 32 = _
    rw [h.size, List.length_append]; simp; omega
  · show scatterU1 T.fill 0 (ys.length + 1) = _
    rw [h.fill]; simp [scatterU1]
  · show (scatterU1 T.table _ x).length = _
    rw [scatterU1_length, h.len]
  · intro i y hy
    show (scatterU1 T.table ys.length x)[i]? = some y
    unfold scatterU1
    rw [if_pos (by rw [h.len]; omega), List.getElem?_set]
    by_cases hi : ys.length = i
    · subst hi
      rw [if_pos rfl, if_pos (by rw [h.len]; omega)]
      rw [List.getElem?_append_right (Nat.le_refl _)] at hy
      simpa using hy
    · rw [if_neg hi]
      apply h.pre
      by_cases hi' : i < ys.length
      · rwa [List.getElem?_append_left hi'] at hy
      · rw [List.getElem?_append_right (by omega)] at hy
        have : i - ys.length ≠ 0 := by omega
        obtain ⟨k, hk⟩ : ∃ k, i - ys.length = k + 1 := ⟨i - ys.length - 1, by omega⟩
        rw [hk] at hy
        simp at hy

theorem one_insertAll (H : Hasher α) (xs : List α) : ∀ {T : Table α} {ys : List α}, One T ys → (ys ++ xs).Nodup →
    ys.length + xs.length ≤ 256 →
    One (insertAll H T xs).1 (ys ++ xs) ∧ (insertAll H T xs).2 = xs.map fun _ => true := by
  induction xs with
  | nil => intro T ys h _ _; simpa [insertAll] using h
  | cons x xs ih =>
    intro T ys h hn hl
    have hx : x ∉ ys := by
      intro hc
      have := (List.nodup_append.1 hn).2.2 x hc x (List.mem_cons_self ..)
      exact this rfl
    rw [List.length_cons] at hl
    obtain ⟨h1, h2⟩ := one_insert H h x hx (by omega)
    have e : ys ++ x :: xs = (ys ++ [x]) ++ xs := by simp
    obtain ⟨h3, h4⟩ := ih h2 (by rw [← e]; exact hn) (by simp; omega)
    refine ⟨by rw [e]; exact h3, ?_⟩
    show (insert H T x).2.1 :: (insertAll H (insert H T x).1 xs).2 = _
    rw [h1, h4]; rfl

/-- **C72, the full claim is false.**  Take any hash functions, and 256 different items.  A table built with
`capacity = 256`, `bucket_size = 256`, `hash_size_multiplier = 1` accepts all of them (each insert reports `True`, `size`
is 256), and after that every lookup, of any item at all, reports "not found". -/
theorem bucket_size_256_false (H : Hasher α) (d : α) (xs : List α) (hn : xs.Nodup) (hlen : xs.length = 256) :
    let r := insertAll H (build d 256 256 1 none) xs
    r.2 = (xs.map fun _ => true) ∧ r.1.size = 256 ∧ (∀ i, i < 256 → Occupied r.1 i) ∧
    (∀ (i : Nat) (x : α), xs[i]? = some x → Stored r.1 x i) ∧ ∀ x, (lookup H r.1 x).2 = false := by
  have h0 : One (build d 256 256 1 none) [] :=
    { cap := rfl, bs := rfl, mp := Nat.succ_pos 255, size := rfl, fill := rfl,
      len := List.length_replicate, pre := fun i y h => (by simp at h) }
  obtain ⟨h1, h2⟩ := one_insertAll H xs h0 (by simpa using hn) (by simp; omega)
  rw [List.nil_append] at h1
  have hocc : ∀ i, i < 256 → Occupied (insertAll H (build d 256 256 1 none) xs).1 i := by
    intro i hi
    refine ⟨by rw [h1.cap, h1.bs]; omega, ?_⟩
    rw [h1.bs, h1.fill, hlen, Nat.mod_eq_of_lt hi, Nat.div_eq_of_lt hi]
    exact hi
  refine ⟨h2, by rw [h1.size, hlen], hocc, ?_, ?_⟩
  · intro i x hx
    have hi : i < 256 := by rw [← hlen]; exact (List.getElem?_eq_some_iff.1 hx).1
    refine ⟨hocc i hi, ?_⟩
    unfold getitem
    rw [gatherU_of_lt _ _ (by rw [h1.len]; omega)]
    exact h1.pre i x hx
  · intro x
    refine (full_bucket_reads_empty H _ x h1.bs h1.mp ?_).1
    rw [one_start H h1]
    simp [rd, h1.fill, hlen]

/-- **C72, what holds** (a corollary of C16 and C20): with at most 255 slots per bucket every item inserted one by one
into a table with room is found afterwards. -/
theorem insertAll_found_partial {K : Type v} [KeyTop K] {H : Hasher α} {T : Table α} (hr : Reachable K H T) (xs : List α) :
    ∀ (i : Nat) (x : α), xs[i]? = some x → (insertAll H T xs).2[i]? = some true →
      (lookup H (insertAll H T xs).1 x).2 = true := by
  have hex : ∀ (xs : List α) (T : Table α), (insertAll H T xs).1 = exec H T (xs.map fun x => (Op.insert x : Op α K)) := by
    intro xs
    induction xs with
    | nil => intro T; rfl
    | cons x xs ih => intro T; exact ih _
  induction xs generalizing T with
  | nil => intro i x h; simp at h
  | cons y xs ih =>
    intro i x hx hin
    cases i with
    | zero =>
      have hxy : y = x := by simpa using hx
      subst hxy
      have hin' : (insert H T y).2.1 = true := by
        have : (insertAll H T (y :: xs)).2 = (insert H T y).2.1 :: (insertAll H (insert H T y).1 xs).2 := rfl
        rw [this] at hin
        simpa using hin
      have := (inserted_is_found hr y hin' (xs.map fun x => (Op.insert x : Op α K))).1
      rw [← hex] at this
      exact congrArg Prod.snd this
    | succ i =>
      have hr' : Reachable K H (insert H T y).1 := hr.run (.insert y)
      exact ih hr' i x (by simpa using hx) (by
        have e : (insertAll H T (y :: xs)).2 = (insert H T y).2.1 :: (insertAll H (insert H T y).1 xs).2 := rfl
        rw [e] at hin
        simpa using hin)

/-- Non-vacuity: 256 different items exist. -/
example : ((List.range 256)).Nodup ∧ (List.range 256).length = 256 := ⟨List.nodup_range, List.length_range⟩

/-- Non-vacuity of `full_bucket_reads_empty`: the table the inserts produce has a full start bucket. -/
example : rd (insertAll exHasher (build 0 256 256 1 none) (List.range 256)).1.fill 0 = 256 ∧
    (lookup exHasher (insertAll exHasher (build 0 256 256 1 none) (List.range 256)).1 7).2 = false := by
  obtain ⟨_, _, _, h4, h5⟩ :=
    bucket_size_256_false exHasher 0 (List.range 256) List.nodup_range List.length_range
  refine ⟨?_, h5 7⟩
  have h0 : One (build 0 256 256 1 none) ([] : List Nat) :=
    { cap := rfl, bs := rfl, mp := (by decide), size := rfl, fill := rfl,
      len := List.length_replicate, pre := fun i y h => (by simp at h) }
  obtain ⟨h1, _⟩ := one_insertAll exHasher (List.range 256) h0 (by simpa using List.nodup_range) (by simp)
  simp [rd, h1.fill]

end HashTable
