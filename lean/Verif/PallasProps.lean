import Verif.HTReserve

/-!
# Bucket-owner reservation kernel (TPU): correctness (C29)
-/

namespace SortGroup

/-- Scatter along a permutation of `range n`. -/
theorem scatter_perm_getD {β : Type v} {n : Nat} {sorted : List Nat} (hp : sorted.Perm (List.range n)) (d0 d : β) (vals : List β)
    (hv : vals.length = n) {p i : Nat} (hpi : sorted[p]? = some i) :
    (scatterSet (List.replicate n d0) sorted vals).getD i d = vals.getD p d := by
  have hpl : p < n := by rw [← perm_range_length hp]; exact (List.getElem?_eq_some_iff.1 hpi).1
  have hin := perm_range_lt hp hpi
  rw [List.getD_eq_getElem?_getD, List.getD_eq_getElem?_getD]
  rw [scatterSet_mem _ _ _ p (vals[p]'(by omega)) i hpi (List.getElem?_eq_getElem (by omega))
    (fun q hq => nodup_getElem?_inj (perm_range_nodup hp) hq hpi) (by simpa using hin)]
  rw [List.getElem?_eq_getElem (by omega)]

end SortGroup

namespace HashTable

open Jax SortGroup Dedupe

variable {α : Type u} [DecidableEq α] {H : Hasher α} {T : Table α}

/-! ## Groups of a sorted key column -/

/-- A sorted column `kk` of length `n` with its group starts and group lengths. -/
structure Groups (n : Nat) (kk : Nat → Nat) (starts : List Bool) (glen : List Nat) : Prop where
  mono : ∀ p q, p ≤ q → q < n → kk p ≤ kk q
  start : ∀ p, p < n → (starts.getD p false = true ↔ p = 0 ∨ kk (p - 1) ≠ kk p)
  len : ∀ p, p < n → starts.getD p false = true → glen.getD p 0 = ((List.range n).filter fun q => kk q == kk p).length

variable {n : Nat} {kk : Nat → Nat} {starts : List Bool} {glen : List Nat}

theorem Groups.before (h : Groups n kk starts glen) {p q : Nat} (hp : p < n) (hs : starts.getD p false = true) (hq : q < p) :
    kk q ≠ kk p := by
  intro he
  rcases (h.start p hp).1 hs with h0 | h0
  · omega
  · have h1 := h.mono q (p - 1) (by omega) (by omega)
    have h2 := h.mono (p - 1) p (by omega) hp
    omega

theorem Groups.range (h : Groups n kk starts glen) {p q : Nat} (hp : p < n) (hs : starts.getD p false = true) :
    (q < n ∧ kk q = kk p) ↔ p ≤ q ∧ q < p + glen.getD p 0 := by
  have hm : ∀ q, q ∈ (List.range n).filter (fun q => kk q == kk p) ↔ q < n ∧ kk q = kk p := by
    intro q; rw [List.mem_filter]; simp
  rw [← hm, h.len p hp hs]
  apply contiguous
  · exact List.Pairwise.filter _ List.nodup_range
  · intro q hq
    rw [hm] at hq
    apply Classical.byContradiction
    intro hlt
    exact h.before hp hs (by omega) hq.2
  · intro q hq q' h1 h2
    rw [hm] at hq ⊢
    have a1 := h.mono p q' h1 (by omega)
    have a2 := h.mono q' q (by omega) hq.1
    exact ⟨by omega, by omega⟩

theorem Groups.find (h : Groups n kk starts glen) {q : Nat} (hq : q < n) :
    ∃ p, p ≤ q ∧ starts.getD p false = true ∧ kk p = kk q := by
  induction q with
  | zero => exact ⟨0, Nat.le_refl _, (h.start 0 hq).2 (Or.inl rfl), rfl⟩
  | succ q ih =>
    by_cases hs : starts.getD (q + 1) false = true
    · exact ⟨q + 1, Nat.le_refl _, hs, rfl⟩
    · obtain ⟨p, h1, h2, h3⟩ := ih (by omega)
      refine ⟨p, by omega, h2, ?_⟩
      rw [h3]
      apply Classical.byContradiction
      intro hne
      exact hs ((h.start (q + 1) hq).2 (Or.inr hne))

/-! ## The kernel -/

section kernel

variable {xs : List α} {upd : List Bool} {s : PState} {inv : Nat → Nat} {sorted : List Nat}

/-- Lane `i` has been given a slot by the kernel. -/
def kIns (n : Nat) (inv : Nat → Nat) (k : PKernel) (i : Nat) : Bool := decide (i < n) && k.outIns.getD (inv i) false

def kOk (n : Nat) (inv : Nat → Nat) (s : PState) (k : PKernel) (i : Nat) : Bool := s.ins.getD i false || kIns n inv k i

def kPos (cap n : Nat) (inv : Nat → Nat) (s : PState) (k : PKernel) (i : Nat) : Pos :=
  if kIns n inv k i then ⟨pKey cap s i, k.outSlot.getD (inv i) 0⟩ else s.res.getD i default

/-- Facts that hold at the start of a round and do not change during it. -/
structure RoundCtx (H : Hasher α) (T : Table α) (xs : List α) (upd : List Bool) (n : Nat) (s : PState) (F0 : Nat → Nat)
    (sorted : List Nat) (inv : Nat → Nat) (starts : List Bool) (glen : List Nat) : Prop where
  perm : sorted.Perm (List.range n)
  inv_ok : ∀ p i : Nat, sorted[p]? = some i → inv i = p
  groups : Groups n (fun p => pKey T.cap s (sorted.getD p 0)) starts glen
  lane : ∀ i, i < n → pKey T.cap s i < T.cap → upd.getD i false = true ∧ s.ins.getD i false = false ∧
    ∀ x, xs[i]? = some x → ∃ j, path H T x j = pKey T.cap s i ∧ FullBelow H T F0 x j

/-- Kernel invariant after the programs below `c` (`F` are the current fill levels). -/
structure KInv (H : Hasher α) (T : Table α) (xs : List α) (upd : List Bool) (n : Nat) (s : PState) (sorted : List Nat)
    (inv : Nat → Nat) (c : Nat) (F : Nat → Nat) (k : PKernel) : Prop where
  lenI : k.outIns.length = n
  lenS : k.outSlot.length = n
  res : RInv H T xs upd F (kOk n inv s k) (kPos T.cap n inv s k)
  own : ∀ q, k.outIns.getD q false = true → ∃ p, p < c ∧ pKey T.cap s (sorted.getD p 0) = pKey T.cap s (sorted.getD q 0)
  left : ∀ q p, q < n → p < c → pKey T.cap s (sorted.getD p 0) = pKey T.cap s (sorted.getD q 0) →
    pKey T.cap s (sorted.getD q 0) < T.cap →
    k.outIns.getD q false = true ∨ F (pKey T.cap s (sorted.getD q 0)) = T.bs
  low : ∀ q, k.outIns.getD q false = true → pKey T.cap s (sorted.getD q 0) < T.cap

variable {F0 F : Nat → Nat} {c : Nat} {k : PKernel}

theorem sorted_getD (hp : sorted.Perm (List.range n)) {q : Nat} (hq : q < n) :
    sorted[q]? = some (sorted.getD q 0) ∧ sorted.getD q 0 < n := by
  have hlt : q < sorted.length := by rw [perm_range_length hp]; exact hq
  have e : sorted[q]? = some (sorted.getD q 0) := by
    rw [List.getD_eq_getElem?_getD, List.getElem?_eq_getElem hlt]; rfl
  exact ⟨e, perm_range_lt hp e⟩

theorem getD_set_bool {l : List Bool} {i j : Nat} {v : Bool} (h : i < l.length) :
    (l.set i v).getD j false = if j = i then v else l.getD j false := by
  rw [List.getD_eq_getElem?_getD, List.getD_eq_getElem?_getD]
  split
  · rename_i e; subst e; rw [List.getElem?_set_self h]; rfl
  · rename_i e; rw [List.getElem?_set_ne (Ne.symm e)]

theorem getD_set_nat {l : List Nat} {i j : Nat} {v : Nat} (h : i < l.length) :
    (l.set i v).getD j 0 = if j = i then v else l.getD j 0 := by
  rw [List.getD_eq_getElem?_getD, List.getD_eq_getElem?_getD]
  split
  · rename_i e; subst e; rw [List.getElem?_set_self h]; rfl
  · rename_i e; rw [List.getElem?_set_ne (Ne.symm e)]

/-- State of the unrolled loop of one program after `o` iterations. -/
structure OInv (H : Hasher α) (T : Table α) (xs : List α) (upd : List Bool) (n : Nat) (s : PState)
    (inv : Nat → Nat) (F : Nat → Nat) (k : PKernel) (pid b L o : Nat) (kf : PKernel × Nat) (F' : Nat → Nat) : Prop where
  lenI : kf.1.outIns.length = n
  lenS : kf.1.outSlot.length = n
  fill : kf.1.fill = k.fill
  occ : kf.1.occ = k.occ
  loc : kf.2 = F' b
  others : ∀ b', b' ≠ b → F' b' = F b'
  mono : ∀ b', b' < T.cap → F b' ≤ F' b'
  res : RInv H T xs upd F' (kOk n inv s kf.1) (kPos T.cap n inv s kf.1)
  done : ∀ o', o' < o → o' < L → kf.1.outIns.getD (pid + o') false = true ∨ F' b = T.bs
  fresh : ∀ o', o ≤ o' → o' < L → kf.1.outIns.getD (pid + o') false = false
  out : ∀ q, ¬ (pid ≤ q ∧ q < pid + L) → kf.1.outIns.getD q false = k.outIns.getD q false
  prog : o ≤ L → o ≤ F' b ∨ F' b = T.bs

theorem offset_step (hsh : Shape T) (hc : RoundCtx H T xs upd n s F0 sorted inv starts glen)
    (hF0 : ∀ b, b < T.cap → F0 b ≤ F b) {pid b L o : Nat} {kf : PKernel × Nat} {F' : Nat → Nat}
    (hb : b < T.cap)
    (hgrp : ∀ q, pid ≤ q → q < pid + L → q < n ∧ pKey T.cap s (sorted.getD q 0) = b)
    (h : OInv H T xs upd n s inv F k pid b L o kf F') :
    ∃ F'', OInv H T xs upd n s inv F k pid b L (o + 1) (pOffset T.bs pid L kf o) F'' := by
  unfold pOffset
  by_cases hcond : o < L ∧ kf.2 < T.bs
  · rw [if_pos hcond]
    obtain ⟨hoL, hlt⟩ := hcond
    rw [h.loc] at hlt ⊢
    obtain ⟨hqn, hqk⟩ := hgrp (pid + o) (by omega) (by omega)
    obtain ⟨hsq, hin⟩ := sorted_getD hc.perm hqn
    obtain ⟨i, hi⟩ : ∃ i, sorted.getD (pid + o) 0 = i := ⟨_, rfl⟩
    rw [hi] at hsq hin hqk
    have hinv := hc.inv_ok _ _ hsq
    obtain ⟨hu, hins, hpath⟩ := hc.lane i hin (by rw [hqk]; exact hb)
    have hfr := h.fresh o (Nat.le_refl _) hoL
    have hlI : pid + o < kf.1.outIns.length := by rw [h.lenI]; exact hqn
    have hlS : pid + o < kf.1.outSlot.length := by rw [h.lenS]; exact hqn
    have hinvne : ∀ l, l < n → l ≠ i → inv l ≠ pid + o := by
      intro l hl hne he
      obtain ⟨p, hp, hpl⟩ := perm_range_pos hc.perm hl
      have := hc.inv_ok _ _ hpl
      rw [he] at this
      rw [← this, hsq] at hpl
      cases hpl; exact hne rfl
    have hkins : ∀ l, kIns n inv
        ⟨kf.1.fill, kf.1.occ, kf.1.outSlot.set (pid + o) (F' b), kf.1.outIns.set (pid + o) true⟩ l = (kIns n inv kf.1 l || decide (l = i)) := by
      intro l
      unfold kIns
      simp only
      rw [getD_set_bool hlI]
      by_cases hl : l < n
      · by_cases e : l = i
        · subst e; simp [hinv, hl]
        · simp [hl, e, hinvne l hl e]
      · have : l ≠ i := by rintro rfl; exact hl hin
        simp [hl, this]
    have hki : kIns n inv kf.1 i = false := by unfold kIns; rw [hinv, hfr]; simp
    refine ⟨bump F' b, ⟨?_, ?_, h.fill, h.occ, ?_, ?_, ?_, ?_, ?_, ?_, ?_, ?_⟩⟩
    · simpa using h.lenI
    · simpa using h.lenS
    · simp only [bump_self]
    · intro b' hne; simp only [bump, if_neg hne]; exact h.others b' hne
    · intro b' hb'; exact Nat.le_trans (h.mono b' hb') (bump_ge b b')
    · apply h.res.claim hsh hu (i := i) (b := b) ?_ hb hlt
      · intro x hx
        obtain ⟨j, hj1, hj2⟩ := hpath x hx
        exact ⟨j, by rw [hj1, hqk], hj2.mono hsh fun b' hb' =>
          ⟨Nat.le_trans (hF0 b' hb') (h.mono b' hb'), (h.res.lo b' hb').2⟩⟩
      · intro l
        unfold kOk
        rw [hkins, Bool.or_assoc]
      · unfold kPos
        rw [hkins]
        simp only [decide_true, Bool.or_true, if_true, hqk, hinv]
        rw [getD_set_nat hlS, if_pos rfl]
      · intro l hl
        have hne : l ≠ i := by
          rintro rfl
          unfold kOk at hl; rw [hins, hki] at hl; cases hl
        unfold kPos
        rw [hkins]
        simp only [hne, decide_false, Bool.or_false]
        split
        · rename_i hk
          have hln : l < n := by unfold kIns at hk; simp at hk; exact hk.1
          rw [getD_set_nat hlS, if_neg (hinvne l hln hne)]
        · rfl
      · unfold kOk; rw [hins, hki]; rfl
    · intro o' h1 h2
      simp only
      rw [getD_set_bool hlI]
      by_cases e : o' = o
      · subst e; left; simp
      · rw [if_neg (by omega)]
        rcases h.done o' (by omega) h2 with h3 | h3
        · exact Or.inl h3
        · omega
    · intro o' h1 h2
      simp only
      rw [getD_set_bool hlI, if_neg (by omega)]
      exact h.fresh o' (by omega) h2
    · intro q hq
      simp only
      rw [getD_set_bool hlI, if_neg (by rintro rfl; exact hq ⟨by omega, by omega⟩)]
      exact h.out q hq
    · intro _
      rw [bump_self]
      rcases h.prog (by omega) with h1 | h1
      · left; omega
      · omega
  · rw [if_neg hcond]
    refine ⟨F', ⟨h.lenI, h.lenS, h.fill, h.occ, h.loc, h.others, h.mono, h.res, ?_, ?_, h.out, ?_⟩⟩
    · intro o' h1 h2
      by_cases e : o' = o
      · subst e
        right
        rw [h.loc] at hcond
        have := (h.res.lo b hb).2
        omega
      · exact h.done o' (by omega) h2
    · intro o' h1 h2; exact h.fresh o' (by omega) h2
    · intro h1
      right
      rw [h.loc] at hcond
      have := (h.res.lo b hb).2
      omega

theorem offset_fold (hsh : Shape T) (hc : RoundCtx H T xs upd n s F0 sorted inv starts glen)
    (hF0 : ∀ b, b < T.cap → F0 b ≤ F b) {pid b L : Nat} {kf : PKernel × Nat} {F' : Nat → Nat}
    (hb : b < T.cap)
    (hgrp : ∀ q, pid ≤ q → q < pid + L → q < n ∧ pKey T.cap s (sorted.getD q 0) = b)
    (h : OInv H T xs upd n s inv F k pid b L 0 kf F') (m : Nat) :
    ∃ F'', OInv H T xs upd n s inv F k pid b L m ((List.range m).foldl (pOffset T.bs pid L) kf) F'' := by
  induction m with
  | zero => exact ⟨F', h⟩
  | succ m ih =>
    obtain ⟨F1, h1⟩ := ih
    rw [List.range_succ, List.foldl_append]
    exact offset_step hsh hc hF0 hb hgrp h1

/-- The fill and occupancy refs agree with the fill levels. -/
def Mirrors (T : Table α) (F : Nat → Nat) (fill occ : List Nat) : Prop :=
  fill.length = T.fill.length ∧ occ.length = T.occ.length ∧
    ∀ b, b < T.cap → fill.getD b 0 = F b ∧ occ.getD b 0 = 2 ^ F b - 1

theorem occ_word {bs f : Nat} (hbs : bs ≤ 32) (hf : f ≤ bs) :
    (if f ≥ bs then fullMask bs else (2 ^ f % 2 ^ 32 + 2 ^ 32 - 1) % 2 ^ 32) = 2 ^ f - 1 := by
  have : ∀ bs : Fin 33, ∀ f : Fin 33, f.1 ≤ bs.1 →
      (if f.1 ≥ bs.1 then fullMask bs.1 else (2 ^ f.1 % 2 ^ 32 + 2 ^ 32 - 1) % 2 ^ 32) = 2 ^ f.1 - 1 := by decide +kernel
  exact this ⟨bs, by omega⟩ ⟨f, by omega⟩ hf

theorem program_step (hsh : Shape T) (hbs : T.bs ≤ 32) (hc : RoundCtx H T xs upd n s F0 sorted inv starts glen)
    (hF0 : ∀ b, b < T.cap → F0 b ≤ F b) {pid : Nat} (hpid : pid < n) (h : KInv H T xs upd n s sorted inv pid F k)
    (hm : Mirrors T F k.fill k.occ) :
    ∃ F', KInv H T xs upd n s sorted inv (pid + 1) F'
        (pProgram T.cap T.bs (tab n fun p => pKey T.cap s (sorted.getD p 0)) starts glen k pid) ∧
      Mirrors T F' (pProgram T.cap T.bs (tab n fun p => pKey T.cap s (sorted.getD p 0)) starts glen k pid).fill
        (pProgram T.cap T.bs (tab n fun p => pKey T.cap s (sorted.getD p 0)) starts glen k pid).occ ∧
      ∀ b, b < T.cap → F b ≤ F' b := by
  unfold pProgram
  simp only
  rw [tab_getD _ _ hpid]
  obtain ⟨b, hbe⟩ : ∃ b, pKey T.cap s (sorted.getD pid 0) = b := ⟨_, rfl⟩
  obtain ⟨L, hL⟩ : ∃ L, glen.getD pid 0 = L := ⟨_, rfl⟩
  rw [hbe, hL]
  by_cases hcond : starts.getD pid false = true ∧ b < T.cap
  · rw [if_pos hcond]
    obtain ⟨hst, hb⟩ := hcond
    have hgrpiff := fun q => hc.groups.range (q := q) hpid hst
    simp only [hbe, hL] at hgrpiff
    have hgrp : ∀ q, pid ≤ q → q < pid + L → q < n ∧ pKey T.cap s (sorted.getD q 0) = b :=
      fun q h1 h2 => (hgrpiff q).2 ⟨h1, h2⟩
    have hbefore : ∀ p, p < pid → pKey T.cap s (sorted.getD p 0) ≠ b := by
      intro p hp
      have := hc.groups.before hpid hst hp
      simp only [hbe] at this; exact this
    have hfb : min (k.fill.getD b 0) T.bs = F b := by
      have := (h.res.lo b hb).2
      rw [(hm.2.2 b hb).1]; omega
    rw [hfb]
    have h0 : OInv H T xs upd n s inv F k pid b L 0 (k, F b) F := by
      refine ⟨h.lenI, h.lenS, rfl, rfl, rfl, fun _ _ => rfl, fun _ _ => Nat.le_refl _, h.res, fun o' h1 => by omega, ?_,
        fun _ _ => rfl, fun _ => Or.inl (Nat.zero_le _)⟩
      intro o' _ h2
      cases hv : k.outIns.getD (pid + o') false with
      | false => rfl
      | true =>
        exfalso
        obtain ⟨p, hp, he⟩ := h.own _ hv
        rw [(hgrp (pid + o') (by omega) (by omega)).2] at he
        exact hbefore p hp he
    obtain ⟨F', h1⟩ := offset_fold hsh hc hF0 hb hgrp h0 T.bs
    generalize (List.range T.bs).foldl (pOffset T.bs pid L) (k, F b) = r at h1
    have hFb' := (h1.res.lo b hb).2
    have hbl : b < k.fill.length := by rw [hm.1, hsh.len_fill]; omega
    have hbo : b < k.occ.length := by rw [hm.2.1, hsh.len_occ]; omega
    refine ⟨F', ⟨h1.lenI, h1.lenS, ?_, ?_, ?_, ?_⟩, ⟨?_, ?_, ?_⟩, h1.mono⟩
    · exact h1.res
    · intro q hq
      by_cases hin : pid ≤ q ∧ q < pid + L
      · exact ⟨pid, by omega, by rw [hbe, (hgrp q hin.1 hin.2).2]⟩
      · simp only at hq
        rw [h1.out q hin] at hq
        obtain ⟨p, hp, he⟩ := h.own q hq
        exact ⟨p, by omega, he⟩
    · intro q p hq hp he hlow
      by_cases hp' : p = pid
      · subst hp'
        rw [hbe] at he
        obtain ⟨a1, a2⟩ := (hgrpiff q).1 ⟨hq, he.symm⟩
        rw [← he]
        simp only
        obtain ⟨o, rfl⟩ : ∃ o, q = p + o := ⟨q - p, by omega⟩
        by_cases ho : o < T.bs
        · exact h1.done o ho (by omega)
        · right
          rcases h1.prog (by omega) with h2 | h2
          · omega
          · exact h2
      · have hpl : p < pid := by omega
        have hin : ¬ (pid ≤ q ∧ q < pid + L) := by
          rintro ⟨a1, a2⟩
          have := hbefore p hpl
          rw [he, (hgrp q a1 a2).2] at this
          exact this rfl
        simp only
        rw [h1.out q hin]
        rcases h.left q p hq hpl he hlow with h2 | h2
        · exact Or.inl h2
        · right
          have a1 := h1.mono _ hlow
          have a2 := (h1.res.lo _ hlow).2
          omega
    · intro q hq
      by_cases hin : pid ≤ q ∧ q < pid + L
      · rw [(hgrp q hin.1 hin.2).2]; exact hb
      · simp only at hq
        rw [h1.out q hin] at hq
        exact h.low q hq
    · simp only; rw [h1.fill, List.length_set]; exact hm.1
    · simp only; rw [h1.occ, List.length_set]; exact hm.2.1
    · intro b' hb'
      simp only
      rw [h1.fill, h1.occ, getD_set_nat hbl, getD_set_nat hbo]
      by_cases e : b' = b
      · subst e
        rw [if_pos rfl, if_pos rfl, h1.loc, occ_word hbs hFb']
        exact ⟨rfl, rfl⟩
      · rw [if_neg e, if_neg e, h1.others b' e]; exact hm.2.2 b' hb'
  · rw [if_neg hcond]
    refine ⟨F, ⟨h.lenI, h.lenS, h.res, ?_, ?_, h.low⟩, hm, fun _ _ => Nat.le_refl _⟩
    · intro q hq
      obtain ⟨p, hp, he⟩ := h.own q hq
      exact ⟨p, by omega, he⟩
    · intro q p hq hp he hlow
      by_cases hp' : p = pid
      · subst hp'
        rw [hbe] at he
        rw [← he] at hlow
        have hns : ¬ starts.getD p false = true := fun hh => hcond ⟨hh, hlow⟩
        obtain ⟨p', h1, h2, h3⟩ := hc.groups.find hpid
        have hlt : p' < p := by
          rcases Nat.lt_or_ge p' p with h4 | h4
          · exact h4
          · have : p' = p := by omega
            subst this; exact absurd h2 hns
        exact h.left q p' hq hlt (by rw [h3, hbe, he]) (by rw [← he]; exact hlow)
      · exact h.left q p hq (by omega) he hlow

theorem programs_fold (hsh : Shape T) (hbs : T.bs ≤ 32) (hc : RoundCtx H T xs upd n s F0 sorted inv starts glen)
    (h : KInv H T xs upd n s sorted inv 0 F0 k) (hm : Mirrors T F0 k.fill k.occ) (m : Nat) (hmn : m ≤ n) :
    ∃ F', KInv H T xs upd n s sorted inv m F' ((List.range m).foldl
        (pProgram T.cap T.bs (tab n fun p => pKey T.cap s (sorted.getD p 0)) starts glen) k) ∧
      Mirrors T F' ((List.range m).foldl
        (pProgram T.cap T.bs (tab n fun p => pKey T.cap s (sorted.getD p 0)) starts glen) k).fill
        ((List.range m).foldl (pProgram T.cap T.bs (tab n fun p => pKey T.cap s (sorted.getD p 0)) starts glen) k).occ ∧
      ∀ b, b < T.cap → F0 b ≤ F' b := by
  induction m with
  | zero => exact ⟨F0, h, hm, fun _ _ => Nat.le_refl _⟩
  | succ m ih =>
    obtain ⟨F1, h1, hm1, hle⟩ := ih (by omega)
    rw [List.range_succ, List.foldl_append]
    simp only [List.foldl_cons, List.foldl_nil]
    obtain ⟨F2, h2, hm2, hle2⟩ := program_step hsh hbs hc hle (by omega) h1 hm1
    exact ⟨F2, h2, hm2, fun b hb => Nat.le_trans (hle b hb) (hle2 b hb)⟩

end kernel

/-! ## Rounds -/

/-- Invariant of the rounds loop after `r` rounds. -/
structure PInv (H : Hasher α) (T : Table α) (xs : List α) (upd : List Bool) (F : Nat → Nat) (r : Nat) (s : PState) :
    Prop where
  mirror : Mirrors T F s.fill s.occ
  res : RInv H T xs upd F (fun i => s.ins.getD i false) (fun i => s.res.getD i default)
  len : s.ins.length = upd.length
  pend : ∀ i, s.pending.getD i false = true → i < upd.length ∧ upd.getD i false = true ∧ s.ins.getD i false = false ∧
    ∀ x, xs[i]? = some x → ∃ j, r ≤ j ∧ path H T x j = s.cur.getD i 0 ∧ FullBelow H T F x j
  all : ∀ i, upd.getD i false = true → s.pending.getD i false = true ∨ s.ins.getD i false = true

variable {xs : List α} {upd : List Bool} {F : Nat → Nat} {r : Nat} {s : PState}

theorem round_ctx (h : PInv H T xs upd F r s) (hx : xs.length = upd.length) :
    ∃ starts glen,
      RoundCtx H T xs upd upd.length s F (pSorted T.cap upd.length s) (fun i => (pSorted T.cap upd.length s).idxOf i) starts
        glen ∧
      pKernel T.cap T.bs upd.length s = (List.range upd.length).foldl
        (pProgram T.cap T.bs (tab upd.length fun p => pKey T.cap s ((pSorted T.cap upd.length s).getD p 0)) starts glen)
        { fill := s.fill, occ := s.occ, outSlot := List.replicate upd.length 0,
          outIns := List.replicate upd.length false } := by
  have hperm : (pSorted T.cap upd.length s).Perm (List.range upd.length) := stableSort_perm _ _
  have hord : ∀ le ∈ [leBy (pKey T.cap s)], IsOrder le := by
    intro le hle; simp only [List.mem_singleton] at hle; subst hle; exact leBy_isOrder _
  have hpw : (pSorted T.cap upd.length s).Pairwise (Lex (· < ·) [leBy (pKey T.cap s)]) :=
    stableSort_refine (leBy_isOrder _).1 (leBy_isOrder _).2 _ List.pairwise_lt_range
  have hsame : ∀ a b, sameAll [leBy (pKey T.cap s)] a b = true ↔ pKey T.cap s a = pKey T.cap s b := by
    intro a b; simp [sameAll, leBy]; omega
  refine ⟨_, _, ?_, rfl⟩
  generalize pSorted T.cap upd.length s = sorted at *
  have hlen := perm_range_length hperm
  refine ⟨hperm, ?_, ⟨?_, ?_, ?_⟩, ?_⟩
  · intro p i hpi
    obtain ⟨hlt, he⟩ := List.getElem?_eq_some_iff.1 hpi
    subst he
    exact List.Nodup.idxOf_getElem (perm_range_nodup hperm) p hlt
  · intro p q hpq hq
    rcases Nat.lt_or_ge p q with hlt | hge
    · have := (pairwise_getD hpw hlt (by omega)).1
      simpa [leBy] using this
    · have : p = q := by omega
      subst this; exact Nat.le_refl _
  · intro p hp
    cases p with
    | zero => simp [groupStarts]
    | succ p =>
      rw [groupStarts_succ _ _ _ (by omega)]
      simp only [Nat.add_sub_cancel, Nat.succ_ne_zero, false_or]
      rw [Bool.not_eq_true', ← Bool.not_eq_true, hsame]
  · intro p hp hst
    rw [tab_getD _ _ hp, if_pos hst]
    have hgl : (groupIds (groupStarts (sameAll [leBy (pKey T.cap s)]) sorted)).length = upd.length := by
      simp [hlen]; omega
    generalize hg : groupIds (groupStarts (sameAll [leBy (pKey T.cap s)]) sorted) = gid at *
    have e : gid = (List.range upd.length).map fun q => gid.getD q 0 := by
      apply List.ext_getElem (by simp [hgl])
      intro i h1 h2
      simp [List.getElem?_eq_getElem h1]
    rw [show gid.countP (· == gid.getD p 0) = ((List.range upd.length).map fun q => gid.getD q 0).countP
      (· == gid.getD p 0) by rw [← e]]
    rw [List.countP_map, List.countP_eq_length_filter]
    congr 1
    apply List.filter_congr
    intro q hq
    have hq' := List.mem_range.1 hq
    have := groupIds_eq_iff hord hpw (p := q) (q := p) (by omega) (by omega)
    rw [hg, hsame] at this
    simp only [Function.comp]
    rw [Bool.eq_iff_iff]
    simp only [beq_iff_eq]
    exact this
  · intro i hin hk
    unfold pKey at hk ⊢
    cases hp : s.pending.getD i false with
    | false => rw [hp] at hk; simp at hk
    | true =>
      obtain ⟨_, h1, h2, h3⟩ := h.pend i hp
      refine ⟨h1, h2, fun x hx' => ?_⟩
      obtain ⟨j, _, hj1, hj2⟩ := h3 x hx'
      exact ⟨j, by simpa using hj1, hj2⟩

theorem pRound_inv (hi : Inv H T) (hbs : T.bs ≤ 32) (hx : xs.length = upd.length) (h : PInv H T xs upd F r s) :
    ∃ F', PInv H T xs upd F' (r + 1) (pRound T (xs.map (step H T)) upd.length s) ∧ ∀ b, b < T.cap → F b ≤ F' b := by
  have hsh := hi.toShape
  obtain ⟨starts, glen, hc, hk⟩ := round_ctx h hx
  have h0 : KInv H T xs upd upd.length s (pSorted T.cap upd.length s) (fun i => (pSorted T.cap upd.length s).idxOf i) 0 F
      { fill := s.fill, occ := s.occ, outSlot := List.replicate upd.length 0,
        outIns := List.replicate upd.length false } := by
    have hf : ∀ q, (List.replicate upd.length false).getD q false = false := by
      intro q; rw [List.getD_eq_getElem?_getD, List.getElem?_replicate]; split <;> rfl
    have hki : ∀ i, kIns upd.length (fun i => (pSorted T.cap upd.length s).idxOf i)
        { fill := s.fill, occ := s.occ, outSlot := List.replicate upd.length 0,
          outIns := List.replicate upd.length false } i = false := by
      intro i; unfold kIns; simp only; rw [hf]; simp
    refine ⟨by simp, by simp, ?_, ?_, ?_, ?_⟩
    · refine h.res.congr ?_ ?_
      · intro i; unfold kOk; rw [hki]; simp
      · intro i _; unfold kPos; rw [hki]; simp
    · intro q hq; rw [hf] at hq; cases hq
    · intro q p _ hp; omega
    · intro q hq; rw [hf] at hq; cases hq
  obtain ⟨F', hK, hM, hle⟩ := programs_fold hsh hbs hc h0 h.mirror upd.length (Nat.le_refl _)
  rw [← hk] at hK hM
  refine ⟨F', ?_, hle⟩
  have hperm := hc.perm
  have hinvok := hc.inv_ok
  unfold pRound
  simp only
  generalize hks : pKernel T.cap T.bs upd.length s = k at *
  generalize hsd : pSorted T.cap upd.length s = sorted at *
  -- scattered values
  have hpos : ∀ i, i < upd.length → sorted[sorted.idxOf i]? = some i := by
    intro i hin
    obtain ⟨p, hp, hpi⟩ := perm_range_pos hperm hin
    rw [show sorted.idxOf i = p from hinvok p i hpi]; exact hpi
  have hI : ∀ i, i < upd.length → (scatterSet (List.replicate upd.length false) sorted k.outIns).getD i false =
      k.outIns.getD (sorted.idxOf i) false := fun i hin => scatter_perm_getD hperm _ _ _ hK.lenI (hpos i hin)
  have hS : ∀ i, i < upd.length → (scatterSet (List.replicate upd.length 0) sorted k.outSlot).getD i 0 =
      k.outSlot.getD (sorted.idxOf i) 0 := fun i hin => scatter_perm_getD hperm _ _ _ hK.lenS (hpos i hin)
  have hidx : ∀ i, i < upd.length → sorted.getD (sorted.idxOf i) 0 = i := by
    intro i hin; rw [List.getD_eq_getElem?_getD, hpos i hin]; rfl
  have hidxlt : ∀ i, i < upd.length → sorted.idxOf i < upd.length := by
    intro i hin
    have := (List.getElem?_eq_some_iff.1 (hpos i hin)).1
    rw [perm_range_length hperm] at this; exact this
  have hB : ∀ i, i < upd.length → (scatterSet (List.replicate upd.length 0) sorted
      (tab upd.length fun p => pKey T.cap s (sorted.getD p 0))).getD i 0 = pKey T.cap s i := by
    intro i hin
    rw [scatter_perm_getD hperm _ _ _ (by simp) (hpos i hin), tab_getD _ _ (hidxlt i hin), hidx i hin]
  -- an inserted lane was pending
  have hpendI : ∀ i, i < upd.length → k.outIns.getD (sorted.idxOf i) false = true → s.pending.getD i false = true := by
    intro i hin hins
    have := hK.low _ hins
    rw [hidx i hin] at this
    unfold pKey at this
    cases hp : s.pending.getD i false with
    | true => rfl
    | false => rw [hp] at this; simp at this
  have hkIns : ∀ i, i < upd.length → kIns upd.length (fun i => sorted.idxOf i) k i = k.outIns.getD (sorted.idxOf i) false := by
    intro i hin; unfold kIns; simp [hin]
  have hnewly : ∀ i, i < upd.length → (tab upd.length fun i => s.pending.getD i false &&
      (scatterSet (List.replicate upd.length false) sorted k.outIns).getD i false).getD i false =
      k.outIns.getD (sorted.idxOf i) false := by
    intro i hin
    rw [tab_getD _ _ hin, hI i hin]
    cases hv : k.outIns.getD (sorted.idxOf i) false with
    | false => simp
    | true => rw [hpendI i hin hv]; rfl
  have hpend' : ∀ i, i < upd.length → (tab upd.length fun i => s.pending.getD i false &&
      !(scatterSet (List.replicate upd.length false) sorted k.outIns).getD i false).getD i false =
      (s.pending.getD i false && !k.outIns.getD (sorted.idxOf i) false) := by
    intro i hin; rw [tab_getD _ _ hin, hI i hin]
  refine ⟨hM, ?_, by simp, ?_, ?_⟩
  · refine hK.res.congr ?_ ?_
    · intro i
      simp only
      unfold kOk
      by_cases hin : i < upd.length
      · rw [tab_getD _ _ hin, hnewly i hin, hkIns i hin]
      · have h1 : s.ins.getD i false = false := by
          rw [List.getD_eq_getElem?_getD, List.getElem?_eq_none (by rw [h.len]; omega)]; rfl
        rw [h1, List.getD_eq_getElem?_getD, tab_getElem?, if_neg hin]
        unfold kIns; simp [hin]
    · intro i hoki
      have hin : i < upd.length := by
        unfold kOk at hoki
        rw [Bool.or_eq_true] at hoki
        rcases hoki with h1 | h1
        · have := getD_true_lt h1; rw [h.len] at this; exact this
        · unfold kIns at h1; simp at h1; exact h1.1
      simp only
      unfold kPos
      rw [tab_getD _ _ hin, hnewly i hin, hkIns i hin, hB i hin, hS i hin]
  · intro i hpi
    simp only at hpi ⊢
    have hin : i < upd.length := by
      have := getD_true_lt hpi; rw [tab_length] at this; exact this
    have hpi' := hpi
    rw [hpend' i hin, Bool.and_eq_true, Bool.not_eq_true'] at hpi'
    obtain ⟨hp, hni⟩ := hpi'
    obtain ⟨_, h1, h2, h3⟩ := h.pend i hp
    refine ⟨hin, h1, ?_, ?_⟩
    · rw [tab_getD _ _ hin, h2, hnewly i hin, hni]; rfl
    · intro x hxi
      obtain ⟨j, hj0, hj1, hj2⟩ := h3 x hxi
      have hkey : pKey T.cap s i = s.cur.getD i 0 := by unfold pKey; rw [hp]; rfl
      have hlow : pKey T.cap s i < T.cap := by rw [hkey, ← hj1]; exact hsh.path_lt' H x j
      have hfull : F' (s.cur.getD i 0) = T.bs := by
        have := hK.left (sorted.idxOf i) (sorted.idxOf i) (hidxlt i hin) (hidxlt i hin) rfl (by rw [hidx i hin]; exact hlow)
        rw [hidx i hin, hni, hkey] at this
        rcases this with h4 | h4
        · cases h4
        · exact h4
      refine ⟨j + 1, by omega, ?_, ?_⟩
      · rw [tab_getD _ _ hin, hpend' i hin, hp, hni]
        simp only [Bool.not_false, Bool.and_self, if_true]
        have : (xs.map (step H T)).getD i 0 = step H T x := by
          rw [List.getD_eq_getElem?_getD, List.getElem?_map, hxi]; rfl
        rw [this, ← hj1]; rfl
      · intro l hl
        by_cases e : l = j
        · subst e; rw [hj1]; exact hfull
        · have h5 := hj2 l (by omega)
          have h6 := hle _ (hsh.path_lt' H x l)
          have h7 := (hK.res.lo _ (hsh.path_lt' H x l)).2
          omega
  · intro i hu
    have hin : i < upd.length := getD_true_lt hu
    simp only
    rw [hpend' i hin, tab_getD _ _ hin, hnewly i hin]
    rcases h.all i hu with h1 | h1
    · rw [h1]
      cases k.outIns.getD (sorted.idxOf i) false <;> simp
    · rw [h1]; simp

theorem pLoop_inv (hi : Inv H T) (hbs : T.bs ≤ 32) (hx : xs.length = upd.length) (rounds : Nat) (h : PInv H T xs upd F r s) :
    ∃ F' r', PInv H T xs upd F' r' (pLoop T (xs.map (step H T)) upd.length rounds s) ∧
      ((pLoop T (xs.map (step H T)) upd.length rounds s).pending.any id = true → r + rounds ≤ r') := by
  induction rounds generalizing F r s with
  | zero => exact ⟨F, r, h, fun _ => Nat.le_refl _⟩
  | succ rounds ih =>
    unfold pLoop
    split
    · obtain ⟨F1, h1, _⟩ := pRound_inv hi hbs hx h
      obtain ⟨F2, r2, h2, hr⟩ := ih h1
      exact ⟨F2, r2, h2, fun hp => by have := hr hp; omega⟩
    · rename_i hp
      exact ⟨F, r, h, fun hp' => absurd hp' hp⟩

theorem pInit_inv (hi : Inv H T) (hbs : T.bs ≤ 32) {pos0 : List Pos} (hs : StartOk H T xs upd pos0) :
    PInv H T xs upd (fillOf T) 0 ⟨T.fill, T.occ, pos0.map (·.bucket),
      tab upd.length fun i => ⟨(pos0.map (·.bucket)).getD i 0, 0⟩, List.replicate upd.length false, upd⟩ := by
  have hf : ∀ q, (List.replicate upd.length false).getD q false = false := by
    intro q; rw [List.getD_eq_getElem?_getD, List.getElem?_replicate]; split <;> rfl
  refine ⟨⟨rfl, rfl, fun b hb => ⟨rfl, hi.occ_ok hbs b hb⟩⟩, ?_, by simp, ?_, ?_⟩
  · refine (RInv.init (xs := xs) (upd := upd) (pos := fun _ => default) hi).congr (fun i => hf i) (fun i h => by cases h)
  · intro i hp
    refine ⟨getD_true_lt hp, hp, hf i, fun x hxi => ?_⟩
    obtain ⟨j, h1, h2⟩ := hs.2.2 i x hp hxi
    refine ⟨j, Nat.zero_le _, ?_, h1⟩
    have hlt : i < pos0.length := by rw [hs.1]; exact getD_true_lt hp
    rw [List.getD_eq_getElem?_getD, List.getElem?_eq_getElem hlt] at h2
    simp only
    rw [List.getD_eq_getElem?_getD, List.getElem?_map, List.getElem?_eq_getElem hlt]
    simp only [Option.getD_some] at h2
    rw [h2]; rfl
  · intro i hu; exact Or.inl hu

theorem pallas_spec (hi : Inv H T) (hbs : T.bs ≤ 32) {pos0 : List Pos} (hs : StartOk H T xs upd pos0) (mpb : Nat)
    (habs : ∀ i x, upd.getD i false = true → xs[i]? = some x → ∀ b s, b < T.cap → ¬ Has T x b s)
    (hdist : ∀ i k x, upd.getD i false = true → upd.getD k false = true → xs[i]? = some x → xs[k]? = some x → i = k) :
    PlaceSpec H T xs upd (applyReserved H T xs (pallasReserve T (xs.map (step H T)) (pos0.map (·.bucket)) upd mpb)) ∧
    (T.cap ≤ mpb → GivesUpFull T upd
      (applyReserved H T xs (pallasReserve T (xs.map (step H T)) (pos0.map (·.bucket)) upd mpb))) := by
  obtain ⟨F, r, h, hr⟩ := pLoop_inv hi hbs hs.2.1 (min mpb T.cap) (pInit_inv hi hbs hs)
  unfold pallasReserve
  simp only
  generalize pLoop T (xs.map (step H T)) upd.length (min mpb T.cap) _ = s at h hr
  refine ⟨applyReserved_spec hi h.res (by simp only [h.len, hs.2.1]) (fun i => rfl) (fun i _ => rfl) h.mirror.1 h.mirror.2.1
    (fun b hb => (h.mirror.2.2 b hb).1) (fun b hb => (h.mirror.2.2 b hb).2) habs hdist, ?_⟩
  intro hcap i hu hno b hb
  have hlt : i < upd.length := getD_true_lt hu
  obtain ⟨x, hx⟩ : ∃ x, xs[i]? = some x := ⟨_, List.getElem?_eq_getElem (by rw [hs.2.1]; exact hlt)⟩
  have hno' : s.ins.getD i false = false := hno
  have hp : s.pending.getD i false = true := by
    rcases h.all i hu with h1 | h1
    · exact h1
    · rw [h1] at hno'; cases hno'
  have hany : s.pending.any id = true := by
    rw [List.any_eq_true]
    refine ⟨true, ?_, rfl⟩
    have hl := getD_true_lt hp
    rw [List.getD_eq_getElem?_getD, List.getElem?_eq_getElem hl] at hp
    simp only [Option.getD_some] at hp
    rw [← hp]; exact List.getElem_mem hl
  obtain ⟨j, hj, _, hf⟩ := (h.pend i hp).2.2.2 x hx
  have := hr hany
  show _ = T.bs
  rw [← hf.all hi.toShape (by omega) hb]
  exact (h.mirror.2.2 b hb).1

end HashTable
