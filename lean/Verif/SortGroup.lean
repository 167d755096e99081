import Verif.Jax
import Verif.KeyOrd

/-!
# Sort-and-group: the JAX idiom used for de-duplication

`/repo` removes duplicates by several stable `argsort` passes (least significant key first), marks the
positions where the sorted key changes, turns them into group ids with a `cumsum` and reduces each group
with a scatter-`min`.  This file models that idiom once and proves what it computes.

Arrays over the lanes of a batch of length `n` are lists built by `tab n f`; element access is `getD`.
-/

namespace SortGroup

open Jax

/-- The array `[f 0, …, f (n-1)]`. -/
def tab {α : Type u} (n : Nat) (f : Nat → α) : List α := (List.range n).map f

@[simp] theorem tab_length {α : Type u} (n : Nat) (f : Nat → α) : (tab n f).length = n := by simp [tab]

theorem tab_getElem? {α : Type u} (n : Nat) (f : Nat → α) (i : Nat) :
    (tab n f)[i]? = if i < n then some (f i) else none := by
  unfold tab
  rw [List.getElem?_map]
  split
  · rw [List.getElem?_range (by assumption)]; rfl
  · rw [List.getElem?_eq_none (by simp; omega)]; rfl

theorem tab_getD {α : Type u} {n : Nat} (f : Nat → α) {i : Nat} (d : α) (h : i < n) :
    (tab n f).getD i d = f i := by
  rw [List.getD_eq_getElem?_getD, tab_getElem?, if_pos h]; rfl

/-! ## Stable sorting -/

theorem sortInsert_perm {α : Type u} (le : α → α → Bool) (a : α) (l : List α) :
    (sortInsert le a l).Perm (a :: l) := by
  induction l with
  | nil => exact List.Perm.refl _
  | cons b l ih =>
    simp only [sortInsert]
    split
    · exact List.Perm.refl _
    · exact (List.Perm.cons b ih).trans (List.Perm.swap a b l)

theorem stableSort_perm {α : Type u} (le : α → α → Bool) (l : List α) : (stableSort le l).Perm l := by
  induction l with
  | nil => exact List.Perm.refl _
  | cons a l ih =>
    show (sortInsert le a (stableSort le l)).Perm _
    exact (sortInsert_perm le a _).trans (List.Perm.cons a ih)

/-- Relation obtained by sorting by `le`, keeping `R` inside each class of equal keys. -/
def Refine {α : Type u} (le : α → α → Bool) (R : α → α → Prop) (a b : α) : Prop :=
  le a b = true ∧ (le b a = true → R a b)

theorem sortInsert_refine {α : Type u} {le : α → α → Bool} {R : α → α → Prop}
    (trans : ∀ a b c, le a b = true → le b c = true → le a c = true)
    (total : ∀ a b, (le a b || le b a) = true) (a : α) (l : List α)
    (hl : l.Pairwise (Refine le R)) (hR : ∀ b ∈ l, R a b) :
    (sortInsert le a l).Pairwise (Refine le R) := by
  induction l with
  | nil => simp [sortInsert]
  | cons b l ih =>
    rw [List.pairwise_cons] at hl
    simp only [sortInsert]
    split
    · rename_i hab
      rw [List.pairwise_cons]
      refine ⟨?_, List.pairwise_cons.2 hl⟩
      intro c hc
      rcases List.mem_cons.1 hc with rfl | hc
      · exact ⟨hab, fun _ => hR _ (by simp)⟩
      · exact ⟨trans _ _ _ hab (hl.1 c hc).1, fun _ => hR _ (by simp [hc])⟩
    · rename_i hab
      rw [List.pairwise_cons]
      refine ⟨?_, ih hl.2 (fun c hc => hR c (by simp [hc]))⟩
      intro c hc
      rcases List.mem_cons.1 ((sortInsert_perm le a l).mem_iff.1 hc) with rfl | hc
      · refine ⟨?_, fun h => absurd h hab⟩
        have := total b c; simp only [Bool.or_eq_true] at this
        exact this.resolve_right hab
      · exact hl.1 c hc

/-- Sorting stably by `le` a list ordered by `R` gives a list ordered by `le`, then `R`. -/
theorem stableSort_refine {α : Type u} {le : α → α → Bool} {R : α → α → Prop}
    (trans : ∀ a b c, le a b = true → le b c = true → le a c = true)
    (total : ∀ a b, (le a b || le b a) = true) (l : List α) (hl : l.Pairwise R) :
    (stableSort le l).Pairwise (Refine le R) := by
  induction l with
  | nil => simp [stableSort]
  | cons a l ih =>
    show (sortInsert le a (stableSort le l)).Pairwise _
    rw [List.pairwise_cons] at hl
    exact sortInsert_refine trans total a _ (ih hl.2)
      (fun b hb => hl.1 b ((stableSort_perm le l).mem_iff.1 hb))

/-- Multi-pass stable argsort: `perm = arange(n)`; one pass per key, last key first
(`for k in reversed(sort_keys): perm = perm[argsort(k[perm], stable=True)]`). -/
def sortPasses (les : List (Nat → Nat → Bool)) (perm : List Nat) : List Nat :=
  les.foldr (fun le p => stableSort le p) perm

/-- Lexicographic order by a list of keys, refined by `R` when all keys are equal. -/
def Lex (R : Nat → Nat → Prop) : List (Nat → Nat → Bool) → Nat → Nat → Prop
  | [] => R
  | le :: les => Refine le (Lex R les)

/-- A key comparison: a total preorder. -/
def IsOrder (le : Nat → Nat → Bool) : Prop :=
  (∀ a b c, le a b = true → le b c = true → le a c = true) ∧ ∀ a b, (le a b || le b a) = true

theorem sortPasses_perm (les : List (Nat → Nat → Bool)) (p : List Nat) : (sortPasses les p).Perm p := by
  induction les with
  | nil => exact List.Perm.refl _
  | cons le les ih => exact (stableSort_perm le _).trans ih

theorem sortPasses_lex {R : Nat → Nat → Prop} (les : List (Nat → Nat → Bool)) (p : List Nat)
    (hp : p.Pairwise R) (h : ∀ le ∈ les, IsOrder le) : (sortPasses les p).Pairwise (Lex R les) := by
  induction les with
  | nil => exact hp
  | cons le les ih =>
    have := h le (by simp)
    exact stableSort_refine this.1 this.2 _ (ih (fun l hl => h l (by simp [hl])))

/-- All keys equal. -/
def sameAll (les : List (Nat → Nat → Bool)) (i j : Nat) : Bool := les.all fun le => le i j && le j i

theorem sameAll_iff {les : List (Nat → Nat → Bool)} {i j : Nat} :
    sameAll les i j = true ↔ ∀ le ∈ les, le i j = true ∧ le j i = true := by
  simp [sameAll]

/-- Keys of a sandwiched element: if `a ≤ b ≤ c` lexicographically and `a`, `c` have equal keys then `b`
has the same keys. -/
theorem lex_between {R : Nat → Nat → Prop} {les : List (Nat → Nat → Bool)} (h : ∀ le ∈ les, IsOrder le)
    {a b c : Nat} (hab : Lex R les a b) (hbc : Lex R les b c) (hac : sameAll les a c = true) :
    sameAll les a b = true ∧ sameAll les b c = true := by
  induction les with
  | nil => simp [sameAll]
  | cons le les ih =>
    have ho := h le (by simp)
    simp only [sameAll, List.all_cons, Bool.and_eq_true] at hac ⊢
    obtain ⟨⟨h1, h2⟩, h3⟩ := hac
    have hba : le b a = true := ho.1 _ _ _ hbc.1 h2
    have hcb : le c b = true := ho.1 _ _ _ h2 hab.1
    have := ih (fun l hl => h l (by simp [hl])) (hab.2 hba) (hbc.2 hcb) h3
    exact ⟨⟨⟨hab.1, hba⟩, this.1⟩, ⟨⟨hbc.1, hcb⟩, this.2⟩⟩

theorem lex_of_same {R : Nat → Nat → Prop} {les : List (Nat → Nat → Bool)} {a b : Nat}
    (hab : Lex R les a b) (hs : sameAll les a b = true) : R a b := by
  induction les with
  | nil => exact hab
  | cons le les ih =>
    simp only [sameAll, List.all_cons, Bool.and_eq_true] at hs
    exact ih (hab.2 hs.1.2) hs.2

/-! ## Group ids -/

/-- `jnp.cumsum`. -/
def cumsum : Nat → List Nat → List Nat
  | _, [] => []
  | acc, x :: xs => (acc + x) :: cumsum (acc + x) xs

/-- `concatenate([True], k[1:] != k[:-1])` over the sorted positions. -/
def groupStarts (same : Nat → Nat → Bool) (l : List Nat) : List Bool :=
  true :: List.zipWith (fun a b => !same a b) l l.tail

/-- `cumsum(is_group_start) - 1`. -/
def groupIds (starts : List Bool) : List Nat := (cumsum 0 (starts.map Bool.toNat)).map (· - 1)

@[simp] theorem cumsum_length (a : Nat) (l : List Nat) : (cumsum a l).length = l.length := by
  induction l generalizing a with
  | nil => rfl
  | cons x xs ih => simp [cumsum, ih]

theorem cumsum_zero (a : Nat) (l : List Nat) (h : 0 < l.length) :
    (cumsum a l).getD 0 0 = a + l.getD 0 0 := by
  cases l with
  | nil => simp at h
  | cons x xs => simp [cumsum]

theorem cumsum_succ (a : Nat) (l : List Nat) (p : Nat) (h : p + 1 < l.length) :
    (cumsum a l).getD (p + 1) 0 = (cumsum a l).getD p 0 + l.getD (p + 1) 0 := by
  induction l generalizing a p with
  | nil => simp at h
  | cons x xs ih =>
    simp only [List.length_cons] at h
    cases p with
    | zero =>
      have := cumsum_zero (a + x) xs (by omega)
      simpa [cumsum] using this
    | succ p =>
      have := ih (a + x) p (by omega)
      simpa [cumsum] using this

@[simp] theorem groupStarts_length (same : Nat → Nat → Bool) (l : List Nat) :
    (groupStarts same l).length = max 1 l.length := by
  simp [groupStarts]; omega

@[simp] theorem groupIds_length (s : List Bool) : (groupIds s).length = s.length := by simp [groupIds]

theorem groupStarts_succ (same : Nat → Nat → Bool) (l : List Nat) (p : Nat) (h : p + 1 < l.length) :
    (groupStarts same l).getD (p + 1) false = !same (l.getD p 0) (l.getD (p + 1) 0) := by
  simp only [groupStarts, List.getD_cons_succ]
  rw [List.getD_eq_getElem?_getD, List.getElem?_zipWith]
  rw [List.getElem?_eq_getElem (by omega : p < l.length)]
  rw [List.getElem?_tail, List.getElem?_eq_getElem h]
  simp [List.getD_eq_getElem?_getD, List.getElem?_eq_getElem h,
    List.getElem?_eq_getElem (by omega : p < l.length)]

theorem map_toNat_getD (s : List Bool) (p : Nat) : (s.map Bool.toNat).getD p 0 = (s.getD p false).toNat := by
  rw [List.getD_eq_getElem?_getD, List.getD_eq_getElem?_getD, List.getElem?_map]
  cases s[p]? <;> rfl

theorem map_sub_getD (s : List Nat) (p : Nat) : (s.map (· - 1)).getD p 0 = s.getD p 0 - 1 := by
  rw [List.getD_eq_getElem?_getD, List.getD_eq_getElem?_getD, List.getElem?_map]
  cases s[p]? <;> rfl

theorem cumsum_pos (same : Nat → Nat → Bool) (l : List Nat) (p : Nat) (h : p < l.length) :
    1 ≤ (cumsum 0 ((groupStarts same l).map Bool.toNat)).getD p 0 := by
  induction p with
  | zero => rw [cumsum_zero _ _ (by simp [groupStarts]), map_toNat_getD]; simp [groupStarts]
  | succ p ih =>
    rw [cumsum_succ _ _ _ (by simp; omega)]
    have := ih (by omega)
    omega

theorem groupIds_succ (same : Nat → Nat → Bool) (l : List Nat) (p : Nat) (h : p + 1 < l.length) :
    (groupIds (groupStarts same l)).getD (p + 1) 0 =
      (groupIds (groupStarts same l)).getD p 0 + (!same (l.getD p 0) (l.getD (p + 1) 0)).toNat := by
  unfold groupIds
  rw [map_sub_getD, map_sub_getD, cumsum_succ _ _ _ (by simp; omega), map_toNat_getD,
    groupStarts_succ _ _ _ h]
  have := cumsum_pos same l p (by omega)
  omega

theorem groupIds_zero (same : Nat → Nat → Bool) (l : List Nat) :
    (groupIds (groupStarts same l)).getD 0 0 = 0 := by
  unfold groupIds
  rw [map_sub_getD, cumsum_zero _ _ (by simp [groupStarts]), map_toNat_getD]
  simp [groupStarts]

theorem groupIds_mono (same : Nat → Nat → Bool) (l : List Nat) {p q : Nat} (hpq : p ≤ q) (h : q < l.length) :
    (groupIds (groupStarts same l)).getD p 0 ≤ (groupIds (groupStarts same l)).getD q 0 := by
  induction q with
  | zero => have : p = 0 := by omega
            subst this; exact Nat.le_refl _
  | succ q ih =>
    by_cases e : p = q + 1
    · subst e; exact Nat.le_refl _
    · have := ih (by omega) (by omega)
      rw [groupIds_succ _ _ _ h]; omega

theorem groupIds_le (same : Nat → Nat → Bool) (l : List Nat) {q : Nat} (h : q < l.length) :
    (groupIds (groupStarts same l)).getD q 0 ≤ q := by
  induction q with
  | zero => rw [groupIds_zero]; exact Nat.le_refl _
  | succ q ih =>
    rw [groupIds_succ _ _ _ h]
    have := ih (by omega)
    have : (!same (l.getD q 0) (l.getD (q + 1) 0)).toNat ≤ 1 := Bool.toNat_le _
    omega

theorem pairwise_getD {R : Nat → Nat → Prop} {l : List Nat} (h : l.Pairwise R) {p q : Nat} (hpq : p < q)
    (hq : q < l.length) : R (l.getD p 0) (l.getD q 0) := by
  rw [List.pairwise_iff_getElem] at h
  have := h p q (by omega) hq hpq
  simpa [List.getD_eq_getElem?_getD, List.getElem?_eq_getElem hq,
    List.getElem?_eq_getElem (show p < l.length by omega)] using this

/-- After sorting, two positions have the same group id iff all their keys are equal. -/
theorem groupIds_eq_iff {R : Nat → Nat → Prop} {les : List (Nat → Nat → Bool)}
    (h : ∀ le ∈ les, IsOrder le) {l : List Nat} (hl : l.Pairwise (Lex R les)) {p q : Nat}
    (hp : p < l.length) (hq : q < l.length) :
    (groupIds (groupStarts (sameAll les) l)).getD p 0 = (groupIds (groupStarts (sameAll les) l)).getD q 0 ↔
      sameAll les (l.getD p 0) (l.getD q 0) = true := by
  have symm : ∀ {i j}, sameAll les i j = true → sameAll les j i = true := by
    intro i j; rw [sameAll_iff, sameAll_iff]; intro h le hle; exact (h le hle).symm
  have trans : ∀ {i j k}, sameAll les i j = true → sameAll les j k = true → sameAll les i k = true := by
    intro i j k; rw [sameAll_iff, sameAll_iff, sameAll_iff]; intro h1 h2 le hle
    exact ⟨(h le hle).1 _ _ _ (h1 le hle).1 (h2 le hle).1, (h le hle).1 _ _ _ (h2 le hle).2 (h1 le hle).2⟩
  have refl : ∀ i, sameAll les i i = true := by
    intro i; rw [sameAll_iff]; intro le hle
    have := (h le hle).2 i i; simp at this; exact ⟨this, this⟩
  have key : ∀ (q p : Nat), p ≤ q → q < l.length →
      ((groupIds (groupStarts (sameAll les) l)).getD p 0 = (groupIds (groupStarts (sameAll les) l)).getD q 0 ↔
      sameAll les (l.getD p 0) (l.getD q 0) = true) := by
    intro q
    induction q with
    | zero => intro p hp _; have : p = 0 := by omega
              subst this; simp [refl]
    | succ q ih =>
      intro p hpq hq
      by_cases e : p = q + 1
      · subst e; simp [refl]
      · have hi := ih p (by omega) (by omega)
        have hm := groupIds_mono (sameAll les) l (show p ≤ q by omega) (by omega)
        have hs := groupIds_succ (sameAll les) l q hq
        constructor
        · intro he
          have h0 : (!sameAll les (l.getD q 0) (l.getD (q + 1) 0)).toNat = 0 := by omega
          have h1 : sameAll les (l.getD q 0) (l.getD (q + 1) 0) = true := by
            cases hc : sameAll les (l.getD q 0) (l.getD (q + 1) 0) with
            | true => rfl
            | false => rw [hc] at h0; cases h0
          exact trans (hi.1 (by omega)) h1
        · intro hsame
          by_cases e2 : p = q
          · subst e2; rw [hs, hsame]; rfl
          · have hb := lex_between h (pairwise_getD hl (show p < q by omega) (by omega))
              (pairwise_getD hl (show q < q + 1 by omega) hq) hsame
            rw [hs, hb.2, hi.2 hb.1]; rfl
  rcases Nat.le_total p q with hpq | hpq
  · exact key q p hpq hq
  · rw [eq_comm, key p q hpq hp]
    exact ⟨symm, symm⟩

/-! ## Scatter-min per group -/

/-- `full((n,), init).at[group_id].min(vals)` for natural numbers. -/
def segMin (n init : Nat) (gids vals : List Nat) : List Nat :=
  tab n fun g => ((gids.zip vals).filter (fun x => x.1 == g)).foldl (fun m x => min m x.2) init

theorem foldl_min_le (l : List (Nat × Nat)) (init : Nat) :
    l.foldl (fun m x => min m x.2) init ≤ init ∧ (∀ x ∈ l, l.foldl (fun m x => min m x.2) init ≤ x.2) ∧
      (l.foldl (fun m x => min m x.2) init = init ∨ ∃ x ∈ l, l.foldl (fun m x => min m x.2) init = x.2) := by
  induction l generalizing init with
  | nil => simp
  | cons a l ih =>
    obtain ⟨h1, h2, h3⟩ := ih (min init a.2)
    simp only [List.foldl_cons]
    refine ⟨by omega, ?_, ?_⟩
    · intro x hx
      rcases List.mem_cons.1 hx with rfl | hx
      · omega
      · exact h2 x hx
    · rcases h3 with h3 | ⟨x, hx, h3⟩
      · rcases Nat.le_total init a.2 with h | h
        · left; omega
        · right; exact ⟨a, by simp, by omega⟩
      · right; exact ⟨x, by simp [hx], h3⟩

/-- `full((n,), inf).at[group_id].min(vals)` for keys with an infinity. -/
def segMinK {K : Type u} [KeyTop K] (n : Nat) (gids : List Nat) (vals : List K) : List K :=
  tab n fun g => ((gids.zip vals).filter (fun x => x.1 == g)).foldl
    (fun m x => if KeyCmp.le m x.2 then m else x.2) KeyPad.inf

theorem foldl_minK_le {K : Type u} [KeyTop K] (l : List (Nat × K)) (init : K) :
    let r := l.foldl (fun m x => if KeyCmp.le m x.2 then m else x.2) init
    KeyCmp.le r init = true ∧ (∀ x ∈ l, KeyCmp.le r x.2 = true) ∧ (r = init ∨ ∃ x ∈ l, r = x.2) := by
  induction l generalizing init with
  | nil => simp [KeyLE.refl]
  | cons a l ih =>
    simp only [List.foldl_cons]
    obtain ⟨h1, h2, h3⟩ := ih (if KeyCmp.le init a.2 then init else a.2)
    by_cases h : KeyCmp.le init a.2 = true
    · simp only [h, if_true] at h1 h2 h3 ⊢
      refine ⟨h1, ?_, ?_⟩
      · intro x hx
        rcases List.mem_cons.1 hx with rfl | hx
        · exact KeyLE.trans _ _ _ h1 h
        · exact h2 x hx
      · rcases h3 with h3 | ⟨x, hx, h3⟩
        · exact Or.inl h3
        · exact Or.inr ⟨x, by simp [hx], h3⟩
    · have h' : KeyCmp.le a.2 init = true := KeyLE.le_of_not_le (by simpa using h)
      simp only [h] at h1 h2 h3 ⊢
      refine ⟨KeyLE.trans _ _ _ h1 h', ?_, ?_⟩
      · intro x hx
        rcases List.mem_cons.1 hx with rfl | hx
        · exact h1
        · exact h2 x hx
      · rcases h3 with h3 | ⟨x, hx, h3⟩
        · exact Or.inr ⟨a, by simp, h3⟩
        · exact Or.inr ⟨x, by simp [hx], h3⟩

/-! ## Scatter -/

/-- `x.at[idx].set(vals)` for non-negative indices; out-of-range updates are dropped. -/
def scatterSet {α : Type u} (xs : List α) (idx : List Nat) (vals : List α) : List α :=
  (idx.zip vals).foldl (fun a x => a.set x.1 x.2) xs

@[simp] theorem scatterSet_length {α : Type u} (xs : List α) (idx : List Nat) (vals : List α) :
    (scatterSet xs idx vals).length = xs.length := by
  unfold scatterSet
  generalize idx.zip vals = z
  induction z generalizing xs with
  | nil => rfl
  | cons a z ih => simp only [List.foldl_cons]; rw [ih]; simp

theorem scatterSet_not_mem {α : Type u} (xs : List α) (idx : List Nat) (vals : List α) (j : Nat)
    (hj : j ∉ idx) : (scatterSet xs idx vals)[j]? = xs[j]? := by
  unfold scatterSet
  induction idx generalizing xs vals with
  | nil => simp
  | cons a idx ih =>
    cases vals with
    | nil => simp
    | cons v vals =>
      simp only [List.zip_cons_cons, List.foldl_cons]
      simp only [List.mem_cons, not_or] at hj
      rw [ih _ _ hj.2, List.getElem?_set_ne (by omega)]

theorem scatterSet_mem {α : Type u} (xs : List α) (idx : List Nat) (vals : List α) (p : Nat) (v : α) (j : Nat)
    (hp : idx[p]? = some j) (hv : vals[p]? = some v)
    (hu : ∀ q, idx[q]? = some j → q = p) (hj : j < xs.length) :
    (scatterSet xs idx vals)[j]? = some v := by
  unfold scatterSet
  induction idx generalizing xs vals p with
  | nil => simp at hp
  | cons a idx ih =>
    cases vals with
    | nil => simp at hv
    | cons w vals =>
      simp only [List.zip_cons_cons, List.foldl_cons]
      cases p with
      | zero =>
        simp only [List.getElem?_cons_zero, Option.some.injEq] at hp hv
        subst hp; subst hv
        have : a ∉ idx := by
          intro hm
          obtain ⟨q, hq⟩ := List.getElem?_of_mem hm
          have := hu (q + 1) (by simpa using hq)
          omega
        have h2 := scatterSet_not_mem (xs.set a w) idx vals a this
        unfold scatterSet at h2
        rw [h2]; simp [hj]
      | succ p =>
        simp only [List.getElem?_cons_succ] at hp hv
        apply ih (xs.set a w) vals p hp hv _ (by simpa using hj)
        intro q hq
        have := hu (q + 1) (by simpa using hq)
        omega

theorem nodup_getElem?_inj {α : Type u} {l : List α} (h : l.Nodup) {p q : Nat} {a : α}
    (hp : l[p]? = some a) (hq : l[q]? = some a) : p = q := by
  rw [List.nodup_iff_pairwise_ne, List.pairwise_iff_getElem] at h
  obtain ⟨hp1, hp2⟩ := List.getElem?_eq_some_iff.1 hp
  obtain ⟨hq1, hq2⟩ := List.getElem?_eq_some_iff.1 hq
  rcases Nat.lt_trichotomy p q with hlt | he | hlt
  · exact absurd (hp2.trans hq2.symm) (h p q hp1 hq1 hlt)
  · exact he
  · exact absurd (hq2.trans hp2.symm) (h q p hq1 hp1 hlt)

/-- A permutation of `range n`: every index below `n` occurs at exactly one position. -/
theorem perm_range_pos {n : Nat} {l : List Nat} (h : l.Perm (List.range n)) {i : Nat} (hi : i < n) :
    ∃ p, p < n ∧ l[p]? = some i := by
  have hm : i ∈ l := h.mem_iff.2 (by simpa using hi)
  obtain ⟨p, hp⟩ := List.getElem?_of_mem hm
  refine ⟨p, ?_, hp⟩
  have := (List.getElem?_eq_some_iff.1 hp).1
  have := h.length_eq
  simp at this; omega

theorem perm_range_lt {n : Nat} {l : List Nat} (h : l.Perm (List.range n)) {p i : Nat}
    (hp : l[p]? = some i) : i < n := by
  have : i ∈ l := List.mem_of_getElem? hp
  simpa using h.mem_iff.1 this

theorem perm_range_length {n : Nat} {l : List Nat} (h : l.Perm (List.range n)) : l.length = n := by
  simpa using h.length_eq

theorem perm_range_nodup {n : Nat} {l : List Nat} (h : l.Perm (List.range n)) : l.Nodup :=
  h.nodup_iff.2 List.nodup_range

end SortGroup
