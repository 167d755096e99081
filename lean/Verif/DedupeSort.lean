import Verif.DedupeProps

/-!
# De-duplication does not depend on the sort (part of C83)

`XTRUCTURE_HASHTABLE_SORT_BACKEND` selects how the lanes are sorted by their two hashes (hash_utils.py:366-394): by two stable `argsort` passes, or by one `lax.sort`
with two keys, stable or not.
-/

namespace Dedupe

open SortGroup DedupeSpec

variable {α : Type u} {K : Type v} [KeyTop K]

theorem finish_lengths (n : Nat) (filled : List Bool) (key : Option (List K)) (sorted : List Nat) (starts : List Bool) :
    (finish n filled key sorted starts).1.length = n ∧ (finish n filled key sorted starts).2.length = n := by
  simp [finish]

theorem getD_list_ext {β : Type w} (d : β) {l m : List β} {n : Nat} (hl : l.length = n) (hm : m.length = n)
    (h : ∀ i, i < n → l.getD i d = m.getD i d) : l = m := by
  apply List.ext_getElem (by omega)
  intro i h1 h2
  have := h i (by omega)
  simpa [List.getD_eq_getElem?_getD, List.getElem?_eq_getElem h1, List.getElem?_eq_getElem h2] using this

/-- `Guard` and `GuardFor` spelled out: the sentinel is the word of 32 ones. -/
theorem guard_iff (E : Enc α) (xs : List α) (filled : List Bool) (key : Option (List K)) :
    let all := ∀ i, i < xs.length → filled[i]? = some true
    let item := fun (i : Nat) (x : α) => xs[i]? = some x ∧ filled[i]? = some true
    let apart := ∀ i x j y, item i x → item j y → E.h1 x = E.h1 y ∧ E.h2 x = E.h2 y → x = y
    let pairs := ∀ i x, item i x → ¬ (E.h1 x = 0xFFFFFFFF ∧ E.h2 x = 0xFFFFFFFF)
    let words := ∀ i x, item i x → E.words x ≠ List.replicate E.wc 0xFFFFFFFF
    let signatures := 8 < E.wc → ∀ i x, item i x → signature (E.words x) ≠ (0xFFFFFFFF, 0xFFFFFFFF, 0xFFFFFFFF, 0xFFFFFFFF)
    (Guard .exact E xs filled ↔ all ∨ words) ∧
    (Guard .safe E xs filled ↔ all ∨ pairs ∧ (apart ∨ words ∧ signatures)) ∧
    (Guard .approx E xs filled ↔ apart ∧ (all ∨ pairs)) ∧
    let finite := ∀ ks, key = some ks → ∀ i, i < xs.length → filled[i]? = some true → KeyCmp.le KeyPad.inf (ks.getD i KeyPad.inf) = false
    (GuardFor .exact E xs filled key ↔ all ∨ finite ∨ words) ∧
    (GuardFor .safe E xs filled key ↔ all ∨ (finite ∨ pairs) ∧ apart ∨ pairs ∧ (finite ∨ words) ∧ signatures) ∧
    (GuardFor .approx E xs filled key ↔ apart ∧ (all ∨ finite ∨ pairs)) := by
  intro all item apart pairs words signatures
  have ha : NoPairCollision E xs filled ↔ apart :=
    ⟨fun h i x j y hi hj he => h i x hi.1 hi.2 j y hj.1 hj.2 he.1 he.2, fun h i x h1 h2 j y h3 h4 h5 h6 => h i x j y ⟨h1, h2⟩ ⟨h3, h4⟩ ⟨h5, h6⟩⟩
  have hp : PairsClean E xs filled ↔ pairs := ⟨fun h i x hi => h i x hi.1 hi.2, fun h i x h1 h2 => h i x ⟨h1, h2⟩⟩
  have hw : WordsClean E xs filled ↔ words := ⟨fun h i x hi => h i x hi.1 hi.2, fun h i x h1 h2 => h i x ⟨h1, h2⟩⟩
  have hs : SignaturesClean E xs filled ↔ signatures := ⟨fun h h8 i x hi => h h8 i x hi.1 hi.2, fun h h8 i x h1 h2 => h h8 i x ⟨h1, h2⟩⟩
  simp only [Guard, GuardFor, ha, hp, hw, hs]
  exact ⟨Iff.rfl, Iff.rfl, Iff.rfl, Iff.rfl, Iff.rfl, Iff.rfl⟩

/-- What follows the sort does not depend on the order of lanes with equal keys. -/
theorem finish_any_sort {n : Nat} {filled : List Bool} {key : Option (List K)} {les : List (Nat → Nat → Bool)} (hles : ∀ le ∈ les, IsOrder le)
    {R R' : Nat → Nat → Prop} {sorted sorted' : List Nat} (hp : sorted.Perm (List.range n)) (hs : sorted.Pairwise (Lex R les))
    (hp' : sorted'.Perm (List.range n)) (hs' : sorted'.Pairwise (Lex R' les)) :
    finish n filled key sorted (groupStarts (sameAll les) sorted) = finish n filled key sorted' (groupStarts (sameAll les) sorted') := by
  have hrep : ∀ i, i < n → (finish n filled key sorted (groupStarts (sameAll les) sorted)).2.getD i 0 =
      (finish n filled key sorted' (groupStarts (sameAll les) sorted')).2.getD i 0 := by
    intro i hi
    obtain ⟨⟨m, m1, m2, m3⟩, _⟩ := finish_sort_spec (filled := filled) (key := key) hles hp hs i hi
    obtain ⟨⟨m', m1', m2', m3'⟩, _⟩ := finish_sort_spec (filled := filled) (key := key) hles hp' hs' i hi
    have e : m = m' := by
      apply Nat.le_antisymm
      · rcases m1' with e | ⟨l, s, c⟩
        · rcases m1 with e1 | ⟨l1, _, _⟩ <;> omega
        · exact m2 m' l s c
      · rcases m1 with e | ⟨l, s, c⟩
        · rcases m1' with e1 | ⟨l1, _, _⟩ <;> omega
        · exact m2' m l s c
    rw [m3, m3', e]
  refine Prod.ext ?_ ?_
  · refine getD_list_ext false (finish_lengths ..).1 (finish_lengths ..).1 ?_
    intro i hi
    have h1 := (finish_sort_spec (filled := filled) (key := key) hles hp hs i hi).2
    have h2 := (finish_sort_spec (filled := filled) (key := key) hles hp' hs' i hi).2
    exact h1.trans (by rw [hrep i hi]; exact h2.symm)
  · exact getD_list_ext 0 (finish_lengths ..).2 (finish_lengths ..).2 hrep

/-- Whether a collision is found does not depend on the order of lanes with equal keys, if no group mixes filled and unfilled lanes. -/
theorem collision_any_sort {n : Nat} {filled : List Bool} {rows : List (List Nat)} {les : List (Nat → Nat → Bool)} (hles : ∀ le ∈ les, IsOrder le)
    {R R' : Nat → Nat → Prop} {sorted sorted' : List Nat} (hp : sorted.Perm (List.range n)) (hs : sorted.Pairwise (Lex R les))
    (hp' : sorted'.Perm (List.range n)) (hs' : sorted'.Pairwise (Lex R' les))
    (hf : ∀ i j, i < n → j < n → filled.getD i false = true → sameAll les i j = true → filled.getD j false = true) :
    collision filled rows (sameAll les) sorted = collision filled rows (sameAll les) sorted' := by
  have key : ∀ {R R' : Nat → Nat → Prop} {s s' : List Nat}, s.Perm (List.range n) → s'.Perm (List.range n) → s.Pairwise (Lex R les) →
      s'.Pairwise (Lex R' les) → collision filled rows (sameAll les) s = false → collision filled rows (sameAll les) s' = false := by
    intro R R' s s' hps hps' h1 h2 hc
    cases hc' : collision filled rows (sameAll les) s' with
    | false => rfl
    | true =>
      obtain ⟨a, ha, b, hb, hsm, hfa, hfb, hne⟩ := collision_true hc'
      exact absurd (rows_eq_of_no_collision hles hps h1 hc hf (fun _ _ => sameAll_symm) (fun _ _ _ => sameAll_trans hles)
        (List.mem_range.1 (hps'.mem_iff.1 ha)) (List.mem_range.1 (hps'.mem_iff.1 hb)) hfa hsm) hne
  cases h : collision filled rows (sameAll les) sorted with
  | false => exact (key hp hp' hs hs' h).symm
  | true =>
    cases h' : collision filled rows (sameAll les) sorted' with
    | true => rfl
    | false => rw [key hp' hp hs' hs h'] at h; cases h

/-- **De-duplication does not depend on the sort**: every permutation of the lanes in the order of the two hashes gives the same masks and representatives, in every
mode.  In mode `safe` the batch must satisfy `GuardFor` (see `sort_matters_without_guard`). -/
theorem dedupe_any_sort (mode : Mode) (E : Enc α) (xs : List α) (filled : List Bool) (key : Option (List K)) (hg : mode = .safe → GuardFor .safe E xs filled key)
    {sorted : List Nat} (hp : sorted.Perm (List.range xs.length))
    (hs : sorted.Pairwise (Lex (fun _ _ => True) (pairLes filled (xs.map E.h1) (xs.map E.h2)))) :
    dedupePairsFrom mode xs.length E.wc (xs.map E.h1) (xs.map E.h2) (xs.map E.words) filled key sorted = dedupe mode E xs filled key := by
  obtain ⟨hp', hs'⟩ := dedupe_default_sorted E xs filled
  have hfin := finish_any_sort (filled := filled) (key := key) pairLes_isOrder hp hs hp' hs'
  unfold dedupe dedupePairs dedupePairsFrom
  cases mode with
  | exact => rfl
  | approx => exact hfin
  | safe =>
    simp only
    rcases guardFor_pairs (by simp) (hg rfl) with hmix | ⟨_, hn⟩
    · rw [collision_any_sort (rows := xs.map E.words) pairLes_isOrder hp hs hp' hs' hmix, hfin]
    · rw [no_collision hn hp, no_collision hn hp', hfin]

/-- Without the guard the order of an unstable sort matters: with the unfilled lane between the two items (as in `dedupe_sentinel_collision`) one of them is
lost, with the unfilled lane last none is.  Both orders are sorted: all hash pairs are equal. -/
theorem sort_matters_without_guard :
    let d := fun sorted => dedupePairsFrom (K := Option Nat) .safe 3 1 ([7, 0, 8].map badEnc.h1) ([7, 0, 8].map badEnc.h2) ([7, 0, 8].map badEnc.words)
      [true, false, true] none sorted
    (d [0, 1, 2]).1 = [true, false, false] ∧ (d [0, 2, 1]).1 = [true, false, true] := by decide +kernel

/-- Non-vacuity: an unstable order of four lanes with two equal hash pairs. -/
example :
    let E : Enc Nat := { wc := 1, words := fun x => [x], h1 := fun x => x % 2, h2 := fun _ => 0, words_length := by simp, words_inj := by simp }
    dedupePairsFrom (K := Option Nat) .safe 4 1 ([5, 2, 5, 3].map E.h1) ([5, 2, 5, 3].map E.h2) ([5, 2, 5, 3].map E.words) [true, true, true, true] none [1, 3, 2, 0] =
      ([true, true, false, true], [0, 1, 0, 3]) ∧
    dedupe (K := Option Nat) .safe E [5, 2, 5, 3] [true, true, true, true] none = ([true, true, false, true], [0, 1, 0, 3]) := by
  decide +kernel

end Dedupe
