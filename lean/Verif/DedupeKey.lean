import Verif.DedupeKeyModel

/-! # De-duplication with NaN and integer keys -/

namespace Dedupe

open SortGroup DedupeSpec

variable {α : Type v} {K : Type u} [KeyTop K]

/-! ## `finish` with candidates given -/

theorem finishC_rep {n : Nat} {filled : List Bool} {sorted : List Nat} {starts : List Bool} {cands : List Nat} (hp : sorted.Perm (List.range n))
    (hgle : ∀ p, p < n → (groupIds starts).getD p 0 ≤ p) {p i : Nat} (hpi : sorted[p]? = some i) (hpn : p < n) (hi : i < n) :
    (finishC n filled sorted starts cands).2.getD i 0 = (if filled.getD i false then
      (if (segMin n n (groupIds starts) cands).getD ((groupIds starts).getD p 0) 0 = n then 0
        else (segMin n n (groupIds starts) cands).getD ((groupIds starts).getD p 0) 0) else 0) ∧
    (finishC n filled sorted starts cands).1.getD i false =
      (filled.getD i false && (i == (finishC n filled sorted starts cands).2.getD i 0)) := by
  have hgp : (groupIds starts).getD p 0 < n := by have := hgle p hpn; omega
  refine ⟨?_, by simp only [finishC]; rw [tab_getD _ _ hi]⟩
  simp only [finishC]
  rw [tab_getD _ _ hi]
  congr 1
  apply getD_of_getElem?
  refine scatterSet_mem _ _ _ p _ i hpi ?_ (fun q hq => nodup_getElem?_inj (perm_range_nodup hp) hq hpi) (by simpa using hi)
  rw [tab_getElem?, if_pos hpn, tab_getD _ _ hgp]

/-- The key with NaN read as `+inf`. -/
def toKey : Option K → K := fun k => k.getD KeyPad.inf

theorem foldl_minN (l : List (Nat × Option K)) (a : K) :
    ((∃ x ∈ l, x.2 = none) → l.foldl (fun m x => minN m x.2) (some a) = none) ∧
    ((¬ ∃ x ∈ l, x.2 = none) → l.foldl (fun m x => minN m x.2) (some a) =
      some ((l.map fun x => (x.1, toKey x.2)).foldl (fun m x => if KeyCmp.le m x.2 then m else x.2) a)) := by
  have hnone : ∀ l : List (Nat × Option K), l.foldl (fun m x => minN m x.2) none = none := by
    intro l
    induction l with
    | nil => rfl
    | cons x l ih => exact ih
  induction l generalizing a with
  | nil => exact ⟨fun ⟨_, h, _⟩ => (by cases h), fun _ => rfl⟩
  | cons x l ih =>
    obtain ⟨g, k⟩ := x
    cases k with
    | none =>
      refine ⟨fun _ => hnone l, fun h => absurd ⟨(g, none), by simp, rfl⟩ h⟩
    | some b =>
      constructor
      · rintro ⟨x, hx, hxn⟩
        rcases List.mem_cons.1 hx with rfl | hx
        · cases hxn
        · exact (ih _).1 ⟨x, hx, hxn⟩
      · intro h
        exact (ih _).2 (fun ⟨x, hx, hxn⟩ => h ⟨x, by simp [hx], hxn⟩)

theorem zip_map_filter (gids : List Nat) (vals : List (Option K)) (g : Nat) :
    ((gids.zip vals).filter (fun x => x.1 == g)).map (fun x => (x.1, toKey x.2)) = (gids.zip (vals.map toKey)).filter (fun x => x.1 == g) := by
  rw [List.zip_map_right, List.filter_map]
  rfl

theorem segMinN_spec {n : Nat} {gids : List Nat} {vals : List (Option K)} (hl : gids.length = vals.length) {g : Nat} (hg : g < n) :
    ((∃ p, p < gids.length ∧ gids.getD p 0 = g ∧ vals.getD p (some KeyPad.inf) = none) → (segMinN n gids vals).getD g (some KeyPad.inf) = none) ∧
    ((¬ ∃ p, p < gids.length ∧ gids.getD p 0 = g ∧ vals.getD p (some KeyPad.inf) = none) →
      (segMinN n gids vals).getD g (some KeyPad.inf) = some ((segMinK n gids (vals.map toKey)).getD g KeyPad.inf)) := by
  have hiff : (∃ p, p < gids.length ∧ gids.getD p 0 = g ∧ vals.getD p (some KeyPad.inf) = none) ↔
      ∃ x ∈ (gids.zip vals).filter (fun x => x.1 == g), x.2 = none := by
    constructor
    · rintro ⟨p, h1, h2, h3⟩
      exact ⟨_, List.mem_filter.2 ⟨(mem_zip_iff 0 (some KeyPad.inf) hl _).2 ⟨p, h1, rfl⟩, by simpa using h2⟩, h3⟩
    · rintro ⟨x, hx, hn⟩
      rw [List.mem_filter] at hx
      obtain ⟨p, h1, rfl⟩ := (mem_zip_iff 0 (some KeyPad.inf) hl x).1 hx.1
      exact ⟨p, h1, by simpa using hx.2, hn⟩
  rw [hiff]
  unfold segMinN segMinK
  rw [tab_getD _ _ hg, tab_getD _ _ hg, ← zip_map_filter]
  exact foldl_minN _ _

/-- Two candidate lists that agree on a group have the same least candidate there. -/
theorem segMin_congr {n : Nat} {gids v w : List Nat} (hv : gids.length = v.length) (hw : gids.length = w.length) {g : Nat} (hg : g < n)
    (h : ∀ p, p < gids.length → gids.getD p 0 = g → v.getD p 0 = w.getD p 0) : (segMin n n gids v).getD g 0 = (segMin n n gids w).getD g 0 := by
  obtain ⟨a1, a2, a3⟩ := segMin_spec (n := n) (init := n) hv hg
  obtain ⟨b1, b2, b3⟩ := segMin_spec (n := n) (init := n) hw hg
  apply Nat.le_antisymm
  · rcases b3 with b3 | ⟨p, hp, hpg, b3⟩
    · rw [b3]; exact a1
    · rw [b3, ← h p hp hpg]; exact a2 p hp hpg
  · rcases a3 with a3 | ⟨p, hp, hpg, a3⟩
    · rw [a3]; exact b1
    · rw [a3, h p hp hpg]; exact b2 p hp hpg

theorem finish_eq_finishC (n : Nat) (filled : List Bool) (ks : List K) (sorted : List Nat) (starts : List Bool) :
    finish n filled (some ks) sorted starts = finishC n filled sorted starts (tab n fun p =>
      if eqK ((tab n fun p => mk filled ks (sorted.getD p 0)).getD p KeyPad.inf)
        ((segMinK n (groupIds starts) (tab n fun p => mk filled ks (sorted.getD p 0))).getD ((groupIds starts).getD p 0) KeyPad.inf)
        then sorted.getD p 0 else n) := rfl

/-- Groups without a NaN key: as if there were no NaN at all; groups with one: lane 0. -/
theorem finishN_rep {n : Nat} {filled : List Bool} {ks : List (Option K)} {les : List (Nat → Nat → Bool)} (hles : ∀ le ∈ les, IsOrder le)
    {R : Nat → Nat → Prop} {sorted : List Nat} (hp : sorted.Perm (List.range n)) (hs : sorted.Pairwise (Lex R les)) (i : Nat) (hi : i < n) :
    let r := finishN n filled ks sorted (groupStarts (sameAll les) sorted)
    let nan := ∃ j, j < n ∧ sameAll les i j = true ∧ filled.getD j false = true ∧ ks.getD j (some KeyPad.inf) = none
    (nan → r.2.getD i 0 = 0) ∧
    (¬ nan → r.2.getD i 0 = (finish n filled (some (ks.map toKey)) sorted (groupStarts (sameAll les) sorted)).2.getD i 0) ∧
    r.1.getD i false = (filled.getD i false && (i == r.2.getD i 0)) := by
  intro r nan
  have hlen := perm_range_length hp
  obtain ⟨p, hpn, hpi⟩ := perm_range_pos hp hi
  have hpd : sorted.getD p 0 = i := getD_of_getElem? hpi
  have hgle : ∀ p, p < n → (groupIds (groupStarts (sameAll les) sorted)).getD p 0 ≤ p := fun p hpn => groupIds_le _ _ (by omega)
  have hgid : ∀ p q, p < n → q < n → ((groupIds (groupStarts (sameAll les) sorted)).getD p 0 = (groupIds (groupStarts (sameAll les) sorted)).getD q 0 ↔
      sameAll les (sorted.getD p 0) (sorted.getD q 0) = true) := fun p q h1 h2 => groupIds_eq_iff hles hs (by omega) (by omega)
  have hgl : (groupIds (groupStarts (sameAll les) sorted)).length = n := by
    rw [groupIds_length]
    simp [groupStarts, hlen]; omega
  -- masked keys
  have hmkN : (tab n fun p => if filled.getD (sorted.getD p 0) false then ks.getD (sorted.getD p 0) (some KeyPad.inf) else some KeyPad.inf).map toKey =
      tab n fun p => mk filled (ks.map toKey) (sorted.getD p 0) := by
    unfold tab
    rw [List.map_map]
    apply List.map_congr_left
    intro q _
    simp only [Function.comp, mk]
    generalize sorted.getD q 0 = j
    by_cases hf : filled.getD j false = true
    · rw [if_pos hf, if_pos hf]
      rw [List.getD_eq_getElem?_getD, List.getD_eq_getElem?_getD, List.getElem?_map]
      cases ks[j]? <;> rfl
    · rw [if_neg hf, if_neg hf]; rfl
  generalize hmN : (tab n fun p => if filled.getD (sorted.getD p 0) false then ks.getD (sorted.getD p 0) (some KeyPad.inf) else some KeyPad.inf) = mN at hmkN
  have hmNl : mN.length = n := by rw [← hmN]; simp
  have hmNq : ∀ q, q < n → mN.getD q (some KeyPad.inf) =
      if filled.getD (sorted.getD q 0) false then ks.getD (sorted.getD q 0) (some KeyPad.inf) else some KeyPad.inf := by
    intro q hq; rw [← hmN, tab_getD _ _ hq]
  have hnan : nan ↔ ∃ q, q < (groupIds (groupStarts (sameAll les) sorted)).length ∧
      (groupIds (groupStarts (sameAll les) sorted)).getD q 0 = (groupIds (groupStarts (sameAll les) sorted)).getD p 0 ∧ mN.getD q (some KeyPad.inf) = none := by
    constructor
    · rintro ⟨j, hj, hsj, hfj, hkj⟩
      obtain ⟨q, hqn, hqj⟩ := perm_range_pos hp hj
      have hqd : sorted.getD q 0 = j := getD_of_getElem? hqj
      refine ⟨q, by omega, ((hgid p q hpn hqn).2 (by rw [hpd, hqd]; exact hsj)).symm, ?_⟩
      rw [hmNq q hqn, hqd, if_pos hfj]; exact hkj
    · rintro ⟨q, hq, hg, hk⟩
      have hqn : q < n := by omega
      rw [hmNq q hqn] at hk
      by_cases hf : filled.getD (sorted.getD q 0) false = true
      · rw [if_pos hf] at hk
        refine ⟨sorted.getD q 0, perm_range_lt hp (getElem?_of_lt 0 (by omega)), ?_, hf, hk⟩
        have := (hgid p q hpn hqn).1 hg.symm
        rwa [hpd] at this
      · rw [if_neg hf] at hk; cases hk
  have hrep := finishC_rep (filled := filled) (cands := tab n fun p =>
    if eqN (mN.getD p (some KeyPad.inf)) ((segMinN n (groupIds (groupStarts (sameAll les) sorted)) mN).getD
      ((groupIds (groupStarts (sameAll les) sorted)).getD p 0) (some KeyPad.inf)) then sorted.getD p 0 else n) hp hgle hpi hpn hi
  have hr : r = finishC n filled sorted (groupStarts (sameAll les) sorted) (tab n fun p =>
    if eqN (mN.getD p (some KeyPad.inf)) ((segMinN n (groupIds (groupStarts (sameAll les) sorted)) mN).getD
      ((groupIds (groupStarts (sameAll les) sorted)).getD p 0) (some KeyPad.inf)) then sorted.getD p 0 else n) := by
    rw [← hmN]; rfl
  rw [← hr] at hrep
  obtain ⟨hrep, hmask⟩ := hrep
  have hgp : (groupIds (groupStarts (sameAll les) sorted)).getD p 0 < n := by have := hgle p hpn; omega
  obtain ⟨s1, s2⟩ := segMinN_spec (n := n) (gids := groupIds (groupStarts (sameAll les) sorted)) (vals := mN) (by omega) hgp
  refine ⟨fun hn => ?_, fun hn => ?_, hmask⟩
  · have s1 := s1 (hnan.1 hn)
    rw [hrep]
    have hz : (segMin n n (groupIds (groupStarts (sameAll les) sorted)) (tab n fun p =>
        if eqN (mN.getD p (some KeyPad.inf)) ((segMinN n (groupIds (groupStarts (sameAll les) sorted)) mN).getD
          ((groupIds (groupStarts (sameAll les) sorted)).getD p 0) (some KeyPad.inf)) then sorted.getD p 0 else n)).getD
            ((groupIds (groupStarts (sameAll les) sorted)).getD p 0) 0 = n := by
      obtain ⟨_, _, h3⟩ := segMin_spec (n := n) (init := n) (gids := groupIds (groupStarts (sameAll les) sorted)) (vals := tab n fun p =>
        if eqN (mN.getD p (some KeyPad.inf)) ((segMinN n (groupIds (groupStarts (sameAll les) sorted)) mN).getD
          ((groupIds (groupStarts (sameAll les) sorted)).getD p 0) (some KeyPad.inf)) then sorted.getD p 0 else n) (by simp [hgl]) hgp
      rcases h3 with h3 | ⟨q, hq, hg, h3⟩
      · exact h3
      · rw [h3, tab_getD _ _ (by omega), hg, s1]
        cases mN.getD q (some KeyPad.inf) <;> rfl
    rw [hz]
    simp
  · have hkrep := finishC_rep (filled := filled) (cands := tab n fun p =>
      if eqK ((tab n fun p => mk filled (ks.map toKey) (sorted.getD p 0)).getD p KeyPad.inf)
        ((segMinK n (groupIds (groupStarts (sameAll les) sorted)) (tab n fun p => mk filled (ks.map toKey) (sorted.getD p 0))).getD
          ((groupIds (groupStarts (sameAll les) sorted)).getD p 0) KeyPad.inf) then sorted.getD p 0 else n) hp hgle hpi hpn hi
    rw [← finish_eq_finishC] at hkrep
    rw [hrep, hkrep.1]
    have hn' := fun h => hn (hnan.2 h)
    have s2 := s2 hn'
    have hc := segMin_congr (n := n) (gids := groupIds (groupStarts (sameAll les) sorted)) (v := tab n fun p =>
        if eqN (mN.getD p (some KeyPad.inf)) ((segMinN n (groupIds (groupStarts (sameAll les) sorted)) mN).getD
          ((groupIds (groupStarts (sameAll les) sorted)).getD p 0) (some KeyPad.inf)) then sorted.getD p 0 else n)
      (w := tab n fun p =>
        if eqK ((tab n fun p => mk filled (ks.map toKey) (sorted.getD p 0)).getD p KeyPad.inf)
          ((segMinK n (groupIds (groupStarts (sameAll les) sorted)) (tab n fun p => mk filled (ks.map toKey) (sorted.getD p 0))).getD
            ((groupIds (groupStarts (sameAll les) sorted)).getD p 0) KeyPad.inf) then sorted.getD p 0 else n) (by simp [hgl]) (by simp [hgl]) hgp ?_
    · rw [hc]
    · intro q hq hg
      have hqn : q < n := by omega
      rw [tab_getD _ _ hqn, tab_getD _ _ hqn, hg, s2, ← hmkN]
      congr 1
      have : (mN.map toKey).getD q KeyPad.inf = toKey (mN.getD q (some KeyPad.inf)) := by
        rw [List.getD_eq_getElem?_getD, List.getD_eq_getElem?_getD, List.getElem?_map]
        cases mN[q]? <;> rfl
      rw [this]
      cases hk : mN.getD q (some KeyPad.inf) with
      | none => exact absurd ⟨q, hq, hg, hk⟩ hn'
      | some k => rfl

/-! ## All modes, for any way to choose within a group -/

section Generic

variable (fin : List Nat → List Bool → List Bool × List Nat)

theorem dedupe_eq_G (mode : Mode) (E : Enc α) (xs : List α) (filled : List Bool) (key : Option (List K)) :
    dedupe mode E xs filled key = dedupePairsG (finish xs.length filled key) mode xs.length E.wc (xs.map E.h1) (xs.map E.h2) (xs.map E.words) filled
      (sortPasses (pairLes filled (xs.map E.h1) (xs.map E.h2)) (List.range xs.length)) := by
  cases mode <;> rfl

/-- The lanes that are handed to `fin` are grouped exactly by item. -/
theorem dedupeG_exact {mode : Mode} {E : Enc α} {xs : List α} {filled : List Bool} (hg : Guard mode E xs filled)
    {sorted : List Nat} (hp : sorted.Perm (List.range xs.length))
    (hsort : sorted.Pairwise (Lex (fun _ _ => True) (pairLes filled (xs.map E.h1) (xs.map E.h2)))) (P : List Bool × List Nat → Prop)
    (hfin : ∀ (les : List (Nat → Nat → Bool)) (sorted : List Nat), (∀ le ∈ les, IsOrder le) → sorted.Perm (List.range xs.length) →
      sorted.Pairwise (Lex (fun _ _ => True) les) →
      (∀ i j, i < xs.length → j < xs.length → filled.getD i false = true → sameAll les i j = true → filled.getD j false = true ∧ xs[j]? = xs[i]?) →
      (∀ i j, i < xs.length → j < xs.length → filled.getD i false = true → filled.getD j false = true → xs[j]? = xs[i]? → sameAll les i j = true) →
      P (fin sorted (groupStarts (sameAll les) sorted))) :
    P (dedupePairsG fin mode xs.length E.wc (xs.map E.h1) (xs.map E.h2) (xs.map E.words) filled sorted) := by
  have hrows : ∀ m : Mode, m ≠ .approx → AllFilled xs filled ∨ RowsClean m E xs filled → P (dedupeRowsG fin m xs.length E.wc (xs.map E.words) filled) := by
    intro mode hm hg
    have full : P (fin (sortPasses (rowLes filled (xs.map E.words) E.wc) (List.range xs.length))
        (groupStarts (sameAll (rowLes filled (xs.map E.words) E.wc)) (sortPasses (rowLes filled (xs.map E.words) E.wc) (List.range xs.length)))) := by
      refine hfin _ _ rowLes_isOrder (sortPasses_perm _ _) (sortPasses_lex (R := fun _ _ => True) _ _ (range_pairwise_true _) rowLes_isOrder) ?_ ?_
      · intro a b ha hb hf hs
        obtain ⟨x, hx⟩ := getElem?_some_of_lt ha
        obtain ⟨y, hy⟩ := getElem?_some_of_lt hb
        rw [rowLes_eq] at hs
        have hfb := no_mix _ _ (hg.imp_right (fun h i x hx hf hc => h.1 i x hx hf (by
          apply getD_ext (by simp [E.words_length])
          intro c hcl
          rw [E.words_length] at hcl
          rw [hc c (by simpa using hcl)]
          simp [List.getD_eq_getElem?_getD, hcl]))) ha hb hf hs
        refine ⟨hfb, ?_⟩
        have := ((same_cols _ _ hx hy).1 hf hfb).1 hs
        rw [hx, hy]
        congr 1
        symm
        apply E.words_inj
        apply getD_ext (by simp [E.words_length])
        intro c hc
        rw [E.words_length] at hc
        exact this c (by simpa using hc)
      · intro a b ha hb hfa hfb he
        obtain ⟨x, hx⟩ := getElem?_some_of_lt ha
        rw [rowLes_eq]
        rw [hx] at he
        exact ((same_cols _ _ hx he).1 hfa hfb).2 (fun _ _ => rfl)
    unfold dedupeRowsG
    by_cases h1 : mode = .exact ∨ E.wc ≤ 8
    · simp only [if_pos h1]; exact full
    · simp only [if_neg h1]
      by_cases h2 : mode = .safe ∧ collision filled (xs.map E.words) (sameAll (sigLes filled (xs.map E.words)))
          (sortPasses (sigLes filled (xs.map E.words)) (List.range xs.length)) = true
      · simp only [if_pos h2]; exact full
      · simp only [if_neg h2]
        have hsafe : mode = .safe := by
          cases mode
          · exact absurd rfl hm
          · rfl
          · exact absurd (Or.inl rfl) h1
        have hc : collision filled (xs.map E.words) (sameAll (sigLes filled (xs.map E.words)))
          (sortPasses (sigLes filled (xs.map E.words)) (List.range xs.length)) = false := by
          simpa [hsafe] using h2
        have hperm := sortPasses_perm (sigLes filled (xs.map E.words)) (List.range xs.length)
        have hlex := sortPasses_lex (R := fun _ _ => True) (sigLes filled (xs.map E.words))
          (List.range xs.length) (range_pairwise_true _) sigLes_isOrder
        have hmix : ∀ i j, i < xs.length → j < xs.length → filled.getD i false = true →
            sameAll (sigLes filled (xs.map E.words)) i j = true → filled.getD j false = true := by
          intro a b ha hb hf hs
          rw [sigLes_eq] at hs
          refine no_mix _ (fun c x => sigWord c (E.words x))
            (hg.imp_right (fun h i x hx hf hc => h.2.resolve_left (fun e => h1 (Or.inl e)) (Nat.lt_of_not_le fun e => h1 (Or.inr e)) i x hx hf ?_)) ha hb hf hs
          have c0 := hc 0 (by simp); have c1 := hc 1 (by simp)
          have c2 := hc 2 (by simp); have c3 := hc 3 (by simp)
          simp only [sigWord] at c0 c1 c2 c3
          rw [Prod.ext_iff, Prod.ext_iff, Prod.ext_iff]
          exact ⟨c0, c1, c2, c3⟩
        refine hfin _ _ sigLes_isOrder hperm hlex ?_ ?_
        · intro a b ha hb hf hs
          refine ⟨hmix a b ha hb hf hs, ?_⟩
          have := rows_eq_of_no_collision sigLes_isOrder hperm hlex hc hmix (fun _ _ => sameAll_symm)
            (fun _ _ _ => sameAll_trans sigLes_isOrder) ha hb hf hs
          obtain ⟨x, hx⟩ := getElem?_some_of_lt ha
          obtain ⟨y, hy⟩ := getElem?_some_of_lt hb
          rw [map_getD _ hx, map_getD _ hy] at this
          rw [hx, hy, E.words_inj _ _ this]
        · intro a b ha hb hfa hfb he
          obtain ⟨x, hx⟩ := getElem?_some_of_lt ha
          rw [sigLes_eq]
          rw [hx] at he
          exact ((same_cols _ (fun c x => sigWord c (E.words x)) hx he).1 hfa hfb).2 (fun _ _ => rfl)
  have hB : ∀ i j, i < xs.length → j < xs.length → filled.getD i false = true → filled.getD j false = true →
      xs[j]? = xs[i]? → sameAll (pairLes filled (xs.map E.h1) (xs.map E.h2)) i j = true := by
    intro a b ha hb hfa hfb he
    obtain ⟨x, hx⟩ := getElem?_some_of_lt ha
    rw [pairLes_eq]
    rw [hx] at he
    exact ((same_cols _ _ hx he).1 hfa hfb).2 (fun _ _ => rfl)
  cases mode with
  | approx =>
    refine hfin _ _ pairLes_isOrder hp hsort ?_ hB
    intro a b ha hb hf hs
    have hfb := guard_pairs (by simp) hg ha hb hf hs
    exact ⟨hfb, pair_items hg.1 ha hb hf hfb hs⟩
  | exact => exact hrows .exact (by simp) (hg.imp_right fun h => ⟨h, Or.inl rfl⟩)
  | safe =>
    simp only [dedupePairsG]
    split
    · rename_i hc
      exact hrows _ (by simp) (guard_rows hg hp hc)
    · rename_i hc
      have hc : collision filled (xs.map E.words) (sameAll (pairLes filled (xs.map E.h1) (xs.map E.h2))) sorted
          = false := by simpa using hc
      have hmix : ∀ i j, i < xs.length → j < xs.length → filled.getD i false = true →
          sameAll (pairLes filled (xs.map E.h1) (xs.map E.h2)) i j = true → filled.getD j false = true :=
        fun a b ha hb hf hs => guard_pairs (by simp) hg ha hb hf hs
      refine hfin _ _ pairLes_isOrder hp hsort ?_ hB
      intro a b ha hb hf hs
      refine ⟨hmix a b ha hb hf hs, ?_⟩
      have := rows_eq_of_no_collision pairLes_isOrder hp hsort hc hmix (fun _ _ => sameAll_symm)
        (fun _ _ _ => sameAll_trans pairLes_isOrder) ha hb hf hs
      obtain ⟨x, hx⟩ := getElem?_some_of_lt ha
      obtain ⟨y, hy⟩ := getElem?_some_of_lt hb
      rw [map_getD _ hx, map_getD _ hy] at this
      rw [hx, hy, E.words_inj _ _ this]

/-- In every mode filled lanes with equal items are in the same group. -/
theorem dedupeG_any (mode : Mode) {E : Enc α} {xs : List α} {filled : List Bool} (P : List Bool × List Nat → Prop)
    (hfin : ∀ (les : List (Nat → Nat → Bool)) (sorted : List Nat), (∀ le ∈ les, IsOrder le) → sorted.Perm (List.range xs.length) →
      sorted.Pairwise (Lex (fun _ _ => True) les) →
      (∀ (i j : Nat) (x : α), filled.getD i false = true → filled.getD j false = true → xs[i]? = some x → xs[j]? = some x → sameAll les i j = true) →
      P (fin sorted (groupStarts (sameAll les) sorted))) :
    P (dedupePairsG fin mode xs.length E.wc (xs.map E.h1) (xs.map E.h2) (xs.map E.words) filled
      (sortPasses (pairLes filled (xs.map E.h1) (xs.map E.h2)) (List.range xs.length))) := by
  have hrow := hfin _ _ (rowLes_isOrder (filled := filled) (rows := xs.map E.words) (wc := E.wc)) (sortPasses_perm _ _)
    (sortPasses_lex (R := fun _ _ => True) _ _ (range_pairwise_true _) rowLes_isOrder) (by
      intro i j x h1 h2 hx hy
      rw [rowLes_eq]
      exact ((same_cols _ _ hx hy).1 h1 h2).2 (fun _ _ => rfl))
  have hsig := hfin _ _ (sigLes_isOrder (filled := filled) (rows := xs.map E.words)) (sortPasses_perm _ _)
    (sortPasses_lex (R := fun _ _ => True) _ _ (range_pairwise_true _) sigLes_isOrder) (by
      intro i j x h1 h2 hx hy
      rw [sigLes_eq]
      exact ((same_cols _ (fun c x => sigWord c (E.words x)) hx hy).1 h1 h2).2 (fun _ _ => rfl))
  have hpair := hfin _ _ (pairLes_isOrder (filled := filled) (h1 := xs.map E.h1) (h2 := xs.map E.h2)) (sortPasses_perm _ _)
    (sortPasses_lex (R := fun _ _ => True) _ _ (range_pairwise_true _) pairLes_isOrder) (by
      intro i j x h1 h2 hx hy
      rw [pairLes_eq]
      exact ((same_cols _ _ hx hy).1 h1 h2).2 (fun _ _ => rfl))
  have hrows : ∀ m : Mode, P (dedupeRowsG fin m xs.length E.wc (xs.map E.words) filled) := by
    intro m
    unfold dedupeRowsG
    simp only
    split
    · exact hrow
    · split
      · exact hrow
      · exact hsig
  unfold dedupePairsG
  cases mode with
  | exact => exact hrows _
  | approx => exact hpair
  | safe =>
    simp only
    split
    · exact hrows _
    · exact hpair

end Generic

/-! ## NaN keys -/

/-- An equal filled item has the key NaN. -/
def HasNaN (xs : List α) (filled : List Bool) (ks : List (Option K)) (i : Nat) : Prop :=
  ∃ j, j < xs.length ∧ filled[j]? = some true ∧ xs[j]? = xs[i]? ∧ ks[j]? = some none

/-- **C84 (1).**  With NaN among the keys, modes `safe` and `exact`: items none of whose filled lanes has the key NaN are represented by the cheapest lane, as without
NaN; items with a NaN key are represented by lane 0, so that none of their lanes is selected (unless lane 0 is one of them). -/
theorem dedupe_nan_keys {mode : Mode} (E : Enc α) (xs : List α) (filled : List Bool) (hg : Guard mode E xs filled) (ks : List (Option K))
    (i : Nat) (hi : i < xs.length) (hf : filled[i]? = some true) :
    let r := dedupeN mode E xs filled ks
    (¬ HasNaN xs filled ks i → IsBest xs filled (some (ks.map toKey)) i (r.2.getD i 0) ∧
      (r.1[i]? = some true ↔ IsBest xs filled (some (ks.map toKey)) i i)) ∧
    (HasNaN xs filled ks i → r.2.getD i 0 = 0 ∧ (r.1[i]? = some true ↔ i = 0)) := by
  obtain ⟨hp, hsort⟩ := dedupe_default_sorted E xs filled
  refine dedupeG_exact (finishN xs.length filled ks) hg hp hsort (fun r =>
    (¬ HasNaN xs filled ks i → IsBest xs filled (some (ks.map toKey)) i (r.2.getD i 0) ∧
      (r.1[i]? = some true ↔ IsBest xs filled (some (ks.map toKey)) i i)) ∧
    (HasNaN xs filled ks i → r.2.getD i 0 = 0 ∧ (r.1[i]? = some true ↔ i = 0))) ?_
  intro les sorted hles hp hs hA hB
  have hfi := filled_iff.2 hf
  obtain ⟨h1, h2, h3⟩ := finishN_rep (filled := filled) (ks := ks) hles hp hs i hi
  have hnan : (∃ j, j < xs.length ∧ sameAll les i j = true ∧ filled.getD j false = true ∧ ks.getD j (some KeyPad.inf) = none) ↔ HasNaN xs filled ks i := by
    constructor
    · rintro ⟨j, hj, hs, hfj, hk⟩
      refine ⟨j, hj, filled_iff.1 hfj, (hA i j hi hj hfi hs).2, ?_⟩
      rw [List.getD_eq_getElem?_getD] at hk
      cases he : ks[j]? with
      | none => rw [he] at hk; cases hk
      | some v => rw [he] at hk; simp only [Option.getD_some] at hk; rw [hk]
    · rintro ⟨j, hj, hfj, hx, hk⟩
      exact ⟨j, hj, hB i j hi hj hfi (filled_iff.2 hfj) hx, filled_iff.2 hfj, by rw [List.getD_eq_getElem?_getD, hk]; rfl⟩
  rw [hnan] at h1 h2
  have hex := finish_exact (key := some (ks.map toKey)) hles hp hs (Or.inl fun i j h1 h2 h3 h4 => (hA i j h1 h2 h3 h4).1)
    (fun i j h1 h2 h3 _ h5 => (hA i j h1 h2 h3 h5).2) hB i hi
  generalize hrr : finish xs.length filled (some (ks.map toKey)) sorted (groupStarts (sameAll les) sorted) = rk at h2 hex
  refine ⟨fun hn => ?_, fun hn => ?_⟩
  · have e := h2 hn
    have hb := hex.1 hfi
    rw [← e] at hb
    refine ⟨hb, ?_⟩
    rw [← filled_iff, h3, hfi]
    simp only [Bool.true_and, beq_iff_eq]
    constructor
    · intro he; rw [← he] at hb; exact hb
    · intro hbi
      obtain ⟨b1, b2, b3, b4⟩ := hb
      obtain ⟨c1, c2, c3, c4⟩ := hbi
      have d1 := c4 _ b1 b2 b3
      have d2 := b4 i c1 c2 c3
      have := d1.2 d2.1
      have := d2.2 d1.1
      omega
  · have e := h1 hn
    refine ⟨e, ?_⟩
    rw [← filled_iff, h3, hfi, e]
    simp

/-- What every mode guarantees, for keys with NaN too. -/
theorem dedupeN_distinct (mode : Mode) (E : Enc α) (xs : List α) (filled : List Bool) (ks : List (Option K)) :
    let r := dedupeN mode E xs filled ks
    (∀ i, i < xs.length → r.1.getD i false = true → filled.getD i false = true ∧ r.2.getD i 0 = i) ∧
    ∀ (i j : Nat) (x : α), r.1.getD i false = true → r.1.getD j false = true → xs[i]? = some x → xs[j]? = some x → i = j := by
  refine dedupeG_any (finishN xs.length filled ks) mode (fun r =>
    (∀ i, i < xs.length → r.1.getD i false = true → filled.getD i false = true ∧ r.2.getD i 0 = i) ∧
    ∀ (i j : Nat) (x : α), r.1.getD i false = true → r.1.getD j false = true → xs[i]? = some x → xs[j]? = some x → i = j) ?_
  intro les sorted hles hp hs hsame
  have hsel : ∀ i, i < xs.length → (finishN xs.length filled ks sorted (groupStarts (sameAll les) sorted)).1.getD i false = true →
      filled.getD i false = true ∧ (finishN xs.length filled ks sorted (groupStarts (sameAll les) sorted)).2.getD i 0 = i := by
    intro i hi h
    obtain ⟨_, _, h3⟩ := finishN_rep (filled := filled) (ks := ks) hles hp hs i hi
    rw [h3] at h
    simp only [Bool.and_eq_true, beq_iff_eq] at h
    exact ⟨h.1, h.2.symm⟩
  refine ⟨hsel, ?_⟩
  intro i j x hri hrj hx hy
  have hi := (List.getElem?_eq_some_iff.1 hx).1
  have hj := (List.getElem?_eq_some_iff.1 hy).1
  obtain ⟨fi, ei⟩ := hsel i hi hri
  obtain ⟨fj, ej⟩ := hsel j hj hrj
  have hij := hsame i j x fi fj hx hy
  obtain ⟨a1, a2, _⟩ := finishN_rep (filled := filled) (ks := ks) hles hp hs i hi
  obtain ⟨b1, b2, _⟩ := finishN_rep (filled := filled) (ks := ks) hles hp hs j hj
  have hnan : (∃ k, k < xs.length ∧ sameAll les i k = true ∧ filled.getD k false = true ∧ ks.getD k (some KeyPad.inf) = none) ↔
      ∃ k, k < xs.length ∧ sameAll les j k = true ∧ filled.getD k false = true ∧ ks.getD k (some KeyPad.inf) = none :=
    ⟨fun ⟨k, h1, h2, h3⟩ => ⟨k, h1, sameAll_trans hles (sameAll_symm hij) h2, h3⟩, fun ⟨k, h1, h2, h3⟩ => ⟨k, h1, sameAll_trans hles hij h2, h3⟩⟩
  by_cases hn : ∃ k, k < xs.length ∧ sameAll les i k = true ∧ filled.getD k false = true ∧ ks.getD k (some KeyPad.inf) = none
  · rw [← ei, ← ej, a1 hn, b1 (hnan.1 hn)]
  · have e1 := a2 hn
    have e2 := b2 (fun h => hn (hnan.2 h))
    obtain ⟨⟨m, m1, m2, m3⟩, _⟩ := finish_sort_spec (filled := filled) (key := some (ks.map toKey)) hles hp hs i hi
    obtain ⟨⟨m', m1', m2', m3'⟩, _⟩ := finish_sort_spec (filled := filled) (key := some (ks.map toKey)) hles hp hs j hj
    have hmm : m = m' := by
      apply Nat.le_antisymm
      · rcases m1' with e | ⟨l, s, c⟩
        · rcases m1 with e1 | ⟨l1, _, _⟩ <;> omega
        · exact m2 m' l (sameAll_trans hles hij s) c
      · rcases m1 with e | ⟨l, s, c⟩
        · rcases m1' with e1 | ⟨l1, _, _⟩ <;> omega
        · exact m2' m l (sameAll_trans hles (sameAll_symm hij) s) c
    rw [if_pos fi] at m3
    rw [if_pos fj] at m3'
    rw [← ei, ← ej, e1, e2, m3, m3', hmm]

/-- Without NaN the model is the one of C23. -/
theorem dedupeN_eq (mode : Mode) (E : Enc α) (xs : List α) (filled : List Bool) (ks : List K) (i : Nat) (hi : i < xs.length) :
    (dedupeN mode E xs filled (ks.map some)).2.getD i 0 = (dedupe mode E xs filled (some ks)).2.getD i 0 := by
  have hk : (ks.map some).map toKey = ks := by
    rw [List.map_map]
    exact List.map_id'' (fun _ => rfl) ks
  have core : ∀ (les : List (Nat → Nat → Bool)) (sorted : List Nat), (∀ le ∈ les, IsOrder le) → sorted.Perm (List.range xs.length) →
      sorted.Pairwise (Lex (fun _ _ => True) les) → (finishN xs.length filled (ks.map some) sorted (groupStarts (sameAll les) sorted)).2.getD i 0 =
      (finish xs.length filled (some ks) sorted (groupStarts (sameAll les) sorted)).2.getD i 0 := by
    intro les sorted hles hp hs
    have := (finishN_rep (filled := filled) (ks := ks.map some) hles hp hs i hi).2.1
    rw [hk] at this
    apply this
    rintro ⟨j, _, _, _, h⟩
    rw [List.getD_eq_getElem?_getD, List.getElem?_map] at h
    cases hkj : ks[j]? with
    | none => rw [hkj] at h; cases h
    | some v => rw [hkj] at h; cases h
  rw [dedupe_eq_G]
  unfold dedupeN
  have c1 := core _ _ (rowLes_isOrder (filled := filled) (rows := xs.map E.words) (wc := E.wc)) (sortPasses_perm _ (List.range xs.length))
    (sortPasses_lex (R := fun _ _ => True) _ _ (range_pairwise_true _) rowLes_isOrder)
  have c2 := core _ _ (sigLes_isOrder (filled := filled) (rows := xs.map E.words)) (sortPasses_perm _ (List.range xs.length))
    (sortPasses_lex (R := fun _ _ => True) _ _ (range_pairwise_true _) sigLes_isOrder)
  have c3 := core _ _ (pairLes_isOrder (filled := filled) (h1 := xs.map E.h1) (h2 := xs.map E.h2)) (sortPasses_perm _ (List.range xs.length))
    (sortPasses_lex (R := fun _ _ => True) _ _ (range_pairwise_true _) pairLes_isOrder)
  have hrows : ∀ m : Mode, (dedupeRowsG (finishN xs.length filled (ks.map some)) m xs.length E.wc (xs.map E.words) filled).2.getD i 0 =
      (dedupeRowsG (finish xs.length filled (some ks)) m xs.length E.wc (xs.map E.words) filled).2.getD i 0 := by
    intro m
    unfold dedupeRowsG
    simp only
    split
    · exact c1
    · split
      · exact c1
      · exact c2
  unfold dedupePairsG
  cases mode with
  | exact => exact hrows _
  | approx => exact c3
  | safe =>
    simp only
    split
    · exact hrows _
    · exact c3

end Dedupe
