import Verif.HTBatch

/-!
# What a slot reservation must guarantee, independently of the algorithm

`RInv` is the invariant kept by both kernels (Triton and bucket-owner) while they hand out slots: the taken slots of every
bucket are exactly those between the old and the current fill level, each taken once, and every lane skipped only buckets
that are full by now.
-/

namespace HashTable

open Jax SortGroup Dedupe

variable {α : Type u} [DecidableEq α] {H : Hasher α} {T : Table α}

/-- Lane `x` has skipped only full buckets before number `j` of its path. -/
def FullBelow (H : Hasher α) (T : Table α) (F : Nat → Nat) (x : α) (j : Nat) : Prop :=
  ∀ l, l < j → F (path H T x l) = T.bs

/-- Invariant of a reservation in progress; `F b` is the current fill level of bucket `b`. -/
structure RInv (H : Hasher α) (T : Table α) (xs : List α) (upd : List Bool) (F : Nat → Nat) (ok : Nat → Bool)
    (pos : Nat → Pos) : Prop where
  lo : ∀ b, b < T.cap → fillOf T b ≤ F b ∧ F b ≤ T.bs
  range : ∀ i, ok i = true → upd.getD i false = true ∧ (pos i).bucket < T.cap ∧
    fillOf T (pos i).bucket ≤ (pos i).slot ∧ (pos i).slot < F (pos i).bucket
  inj : ∀ i k, ok i = true → ok k = true → pos i = pos k → i = k
  surj : ∀ b s, b < T.cap → fillOf T b ≤ s → s < F b → ∃ i, ok i = true ∧ pos i = ⟨b, s⟩
  path : ∀ i x, ok i = true → xs[i]? = some x → ∃ j, HashTable.path H T x j = (pos i).bucket ∧ FullBelow H T F x j

variable {xs : List α} {upd : List Bool} {F : Nat → Nat} {ok : Nat → Bool} {pos : Nat → Pos}

/-- One more slot taken in bucket `b`. -/
def bump (F : Nat → Nat) (b : Nat) : Nat → Nat := fun b' => if b' = b then F b + 1 else F b'

theorem bump_ge (b b' : Nat) : F b' ≤ bump F b b' := by
  unfold bump; split
  · rename_i h; subst h; omega
  · exact Nat.le_refl _

theorem bump_self (b : Nat) : bump F b b = F b + 1 := by simp [bump]

theorem FullBelow.mono {F' : Nat → Nat} {x : α} {j : Nat} (h : FullBelow H T F x j) (hsh : Shape T)
    (hm : ∀ b, b < T.cap → F b ≤ F' b ∧ F' b ≤ T.bs) : FullBelow H T F' x j := by
  intro l hl
  have h1 := h l hl
  have h2 := hm _ (hsh.path_lt' H x l)
  omega

theorem RInv.init (hi : Inv H T) : RInv H T xs upd (fillOf T) (fun _ => false) pos where
  lo b hb := ⟨Nat.le_refl _, hi.fill_le b hb⟩
  range i h := by cases h
  inj i k h := by cases h
  surj b s _ h1 h2 := by omega
  path i x h := by cases h

theorem RInv.congr {ok' : Nat → Bool} {pos' : Nat → Pos} (h : RInv H T xs upd F ok pos) (h1 : ∀ i, ok' i = ok i)
    (h2 : ∀ i, ok i = true → pos' i = pos i) : RInv H T xs upd F ok' pos' where
  lo := h.lo
  range i hi := by rw [h1] at hi; rw [h2 i hi]; exact h.range i hi
  inj i k hi hk he := by
    rw [h1] at hi hk; rw [h2 i hi, h2 k hk] at he; exact h.inj i k hi hk he
  surj b s hb h3 h4 := by
    obtain ⟨i, hi, hp⟩ := h.surj b s hb h3 h4
    exact ⟨i, by rw [h1]; exact hi, by rw [h2 i hi]; exact hp⟩
  path i x hi hx := by rw [h1] at hi; rw [h2 i hi]; exact h.path i x hi hx

/-- A lane takes the lowest free slot of the bucket it has reached. -/
theorem RInv.claim {ok' : Nat → Bool} {pos' : Nat → Pos} (h : RInv H T xs upd F ok pos) (hsh : Shape T) {i b : Nat}
    (hu : upd.getD i false = true) (hnew : ok i = false) (hb : b < T.cap) (hlt : F b < T.bs)
    (hpath : ∀ x, xs[i]? = some x → ∃ j, HashTable.path H T x j = b ∧ FullBelow H T F x j)
    (hok : ∀ k, ok' k = (ok k || decide (k = i))) (hpi : pos' i = ⟨b, F b⟩) (hpk : ∀ k, ok k = true → pos' k = pos k) :
    RInv H T xs upd (bump F b) ok' pos' := by
  have hlo : ∀ b', b' < T.cap → F b' ≤ bump F b b' ∧ bump F b b' ≤ T.bs := by
    intro b' hb'
    refine ⟨bump_ge b b', ?_⟩
    unfold bump
    split
    · omega
    · exact (h.lo b' hb').2
  have hcase : ∀ k, ok' k = true → (ok k = true ∧ k ≠ i) ∨ (k = i ∧ pos' k = ⟨b, F b⟩) := by
    intro k hk
    rw [hok] at hk
    by_cases e : k = i
    · exact Or.inr ⟨e, by rw [e]; exact hpi⟩
    · refine Or.inl ⟨?_, e⟩
      simpa [e] using hk
  refine ⟨?_, ?_, ?_, ?_, ?_⟩
  · intro b' hb'
    exact ⟨Nat.le_trans (h.lo b' hb').1 (hlo b' hb').1, (hlo b' hb').2⟩
  · intro k hk
    rcases hcase k hk with ⟨h1, _⟩ | ⟨rfl, h2⟩
    · rw [hpk k h1]
      obtain ⟨r1, r2, r3, r4⟩ := h.range k h1
      exact ⟨r1, r2, r3, Nat.lt_of_lt_of_le r4 (bump_ge _ _)⟩
    · rw [h2]
      exact ⟨hu, hb, (h.lo b hb).1, by simp [bump]⟩
  · intro k l hk hl he
    rcases hcase k hk with ⟨h1, _⟩ | ⟨rfl, h2⟩ <;> rcases hcase l hl with ⟨h3, _⟩ | ⟨rfl, h4⟩
    · rw [hpk k h1, hpk l h3] at he; exact h.inj k l h1 h3 he
    · rw [hpk k h1, h4] at he
      have := (h.range k h1).2.2.2
      rw [he] at this; simp only at this; omega
    · rw [h2, hpk l h3] at he
      have := (h.range l h3).2.2.2
      rw [← he] at this; simp only at this; omega
    · rfl
  · intro b' s hb' h1 h2
    by_cases hold : s < F b'
    · obtain ⟨k, hk, hp⟩ := h.surj b' s hb' h1 hold
      exact ⟨k, by rw [hok, hk]; rfl, by rw [hpk k hk]; exact hp⟩
    · unfold bump at h2
      split at h2
      · rename_i e
        refine ⟨i, by rw [hok]; simp, ?_⟩
        subst e
        have : s = F b' := by omega
        rw [this]; exact hpi
      · omega
  · intro k x hk hx
    rcases hcase k hk with ⟨h1, _⟩ | ⟨rfl, h2⟩
    · rw [hpk k h1]
      obtain ⟨j, hj, hf⟩ := h.path k x h1 hx
      exact ⟨j, hj, hf.mono hsh hlo⟩
    · rw [h2]
      obtain ⟨j, hj, hf⟩ := hpath x hx
      exact ⟨j, hj, hf.mono hsh hlo⟩

variable {okL : List Bool} {posL : List Pos}

theorem RInv.placed (h : RInv H T xs upd F ok pos) (hsh : Shape T) (hl : okL.length = xs.length) (hok : ∀ i, okL.getD i false = ok i)
    (hpos : ∀ i, ok i = true → posL.getD i default = pos i) : Placed H T xs okL posL := by
  refine ⟨hl, ?_, ?_, ?_, ?_⟩
  · intro i hi
    rw [hok] at hi
    rw [hpos i hi]
    obtain ⟨_, r2, r3, r4⟩ := h.range i hi
    exact ⟨r2, r3, Nat.lt_of_lt_of_le r4 (h.lo _ r2).2⟩
  · intro i k hi hk he
    rw [hok] at hi hk
    rw [hpos i hi, hpos k hk] at he
    exact h.inj i k hi hk he
  · rintro b s ⟨i, hi, hp⟩ s' h1 h2
    rw [hok] at hi
    rw [hpos i hi] at hp
    obtain ⟨_, r2, r3, r4⟩ := h.range i hi
    rw [hp] at r2 r4
    simp only at r2 r4
    obtain ⟨k, hk, hpk⟩ := h.surj b s' r2 h1 (by omega)
    exact ⟨k, by rw [hok]; exact hk, by rw [hpos k hk]; exact hpk⟩
  · intro i x hi hx
    rw [hok] at hi
    rw [hpos i hi]
    obtain ⟨j, hj, hf⟩ := h.path i x hi hx
    refine ⟨j, hj, fun l hl s h1 h2 => ?_⟩
    have := hf l hl
    obtain ⟨k, hk, hpk⟩ := h.surj _ s (hsh.path_lt' H x l) h1 (by omega)
    exact ⟨k, by rw [hok]; exact hk, by rw [hpos k hk]; exact hpk⟩

theorem RInv.slots_length (h : RInv H T xs upd F ok pos) (hsh : Shape T) (hl : okL.length = xs.length)
    (hok : ∀ i, okL.getD i false = ok i) (hpos : ∀ i, ok i = true → posL.getD i default = pos i) {b : Nat} (hb : b < T.cap) :
    fillOf T b + (slotsIn okL posL b).length = F b := by
  have hp := h.placed hsh hl hok hpos
  have h1 : ∀ s, fillOf T b ≤ s ∧ s < fillOf T b + (slotsIn okL posL b).length ↔ fillOf T b ≤ s ∧ s < F b := by
    intro s
    rw [← hp.slots_iff b s, mem_slotsIn]
    constructor
    · rintro ⟨i, hi, hpi⟩
      rw [hok] at hi
      rw [hpos i hi] at hpi
      obtain ⟨_, r2, r3, r4⟩ := h.range i hi
      rw [hpi] at r3 r4
      exact ⟨r3, r4⟩
    · rintro ⟨h1, h2⟩
      obtain ⟨i, hi, hpi⟩ := h.surj b s hb h1 h2
      exact ⟨i, by rw [hok]; exact hi, by rw [hpos i hi]; exact hpi⟩
  have hlo := (h.lo b hb).1
  have a1 := h1 (F b)
  have a2 := h1 (fillOf T b + (slotsIn okL posL b).length)
  omega

/-- What `parallel_insert` needs from a reservation back-end. -/
structure PlaceSpec (H : Hasher α) (T : Table α) (xs : List α) (upd : List Bool)
    (r : Table α × List Pos × List Bool) : Prop where
  placed : Placed H T xs r.2.2 r.2.1
  sub : ∀ i, r.2.2.getD i false = true → upd.getD i false = true
  size : r.1.size = (T.size + r.2.2.countP id) % 2 ^ 32
  ext : Ext H T r.1 (fun x b s => ∃ i, r.2.2.getD i false = true ∧ xs[i]? = some x ∧ r.2.1.getD i default = ⟨b, s⟩)
  tab : r.1.table = scatterSet T.table (safeIdx T r.2.2 r.2.1) xs

/-- The wrappers of the kernels (`applyReserved`) turn a correct reservation into a correct placement. -/
theorem applyReserved_spec (hi : Inv H T) {r : Reserved} (h : RInv H T xs upd F ok pos) (hl : r.ok.length = xs.length)
    (hok : ∀ i, r.ok.getD i false = ok i) (hpos : ∀ i, ok i = true → r.pos.getD i default = pos i)
    (hfl : r.fill.length = T.fill.length) (hol : r.occ.length = T.occ.length)
    (hfill : ∀ b, b < T.cap → r.fill.getD b 0 = F b) (hocc : ∀ b, b < T.cap → r.occ.getD b 0 = 2 ^ F b - 1)
    (habs : ∀ i x, upd.getD i false = true → xs[i]? = some x → ∀ b s, b < T.cap → ¬ Has T x b s)
    (hdist : ∀ i k x, upd.getD i false = true → upd.getD k false = true → xs[i]? = some x → xs[k]? = some x → i = k) :
    PlaceSpec H T xs upd (applyReserved H T xs r) := by
  have hsh := hi.toShape
  have hsub : ∀ i, r.ok.getD i false = true → upd.getD i false = true := by
    intro i h1; rw [hok] at h1; exact (h.range i h1).1
  have hp := h.placed hsh hl hok hpos
  have hmap : ∀ i, r.ok.getD i false = true →
      (r.pos.map fun p => ({ p with slot := p.slot % 256 } : Pos)).getD i default = r.pos.getD i default := by
    intro i h1
    have hs := (hp.range i h1).2.2
    have hb := hsh.bs_le
    rw [List.getD_eq_getElem?_getD, List.getElem?_map]
    rw [List.getD_eq_getElem?_getD] at hs ⊢
    cases hc : r.pos[i]? with
    | none => rfl
    | some p =>
      rw [hc] at hs
      simp only [Option.getD_some] at hs
      simp only [Option.map_some, Option.getD_some]
      rw [Nat.mod_eq_of_lt (by omega)]
  have hp' : Placed H T xs r.ok (r.pos.map fun p => ({ p with slot := p.slot % 256 } : Pos)) := by
    refine h.placed hsh hl hok fun i h1 => ?_
    rw [hmap i (by rw [hok]; exact h1)]; exact hpos i h1
  have htab : (applyReserved H T xs r).1.table = scatterSet T.table (safeIdx T (applyReserved H T xs r).2.2 (applyReserved H T xs r).2.1) xs := by
    show scatterSet T.table (safeIdx T r.ok r.pos) xs = scatterSet T.table (safeIdx T r.ok (r.pos.map fun p => ({ p with slot := p.slot % 256 } : Pos))) xs
    congr 1
    unfold safeIdx tab
    refine List.map_congr_left fun i _ => ?_
    by_cases h1 : r.ok.getD i false = true
    · rw [if_pos h1, if_pos h1, hmap i h1]
    · rw [if_neg h1, if_neg h1]
  refine ⟨hp', hsub, rfl, ?_, htab⟩
  have hext : Ext H T (applyReserved H T xs r).1 (fun x b s => ∃ i, r.ok.getD i false = true ∧ xs[i]? = some x ∧
      r.pos.getD i default = ⟨b, s⟩) := by
    refine Placed.ext hi hp (fun i x h => habs i x (hsub i h)) (fun i k x h1 h2 => hdist i k x (hsub i h1) (hsub k h2))
      rfl rfl rfl rfl rfl hfl hol ?_ rfl ?_
    · intro b hb
      rw [h.slots_length hsh hl hok hpos hb]; exact hfill b hb
    · intro _ b hb
      rw [h.slots_length hsh hl hok hpos hb]; exact hocc b hb
  have hfun : (fun (x : α) (b s : Nat) => ∃ i, (applyReserved H T xs r).2.2.getD i false = true ∧ xs[i]? = some x ∧
      (applyReserved H T xs r).2.1.getD i default = ⟨b, s⟩) = (fun x b s => ∃ i, r.ok.getD i false = true ∧ xs[i]? = some x ∧
      r.pos.getD i default = ⟨b, s⟩) := by
    funext x b s
    apply propext
    constructor
    · rintro ⟨i, h1, h2, h3⟩
      exact ⟨i, h1, h2, by rw [← hmap i h1]; exact h3⟩
    · rintro ⟨i, h1, h2, h3⟩
      exact ⟨i, h1, h2, by rw [← h3]; exact hmap i h1⟩
  rw [hfun]; exact hext

/-- Where the updatable lanes of a batch stand after the lookup phase. -/
def StartOk (H : Hasher α) (T : Table α) (xs : List α) (upd : List Bool) (pos0 : List Pos) : Prop :=
  pos0.length = upd.length ∧ xs.length = upd.length ∧
  ∀ i x, upd.getD i false = true → xs[i]? = some x →
    ∃ j, FullBelow H T (fillOf T) x j ∧ pos0.getD i default = ⟨path H T x j, fillOf T (path H T x j)⟩

/-- A reservation whose unsuccessful lanes saw only full buckets. -/
def GivesUpFull (T : Table α) (upd : List Bool) (r : Table α × List Pos × List Bool) : Prop :=
  ∀ i, upd.getD i false = true → r.2.2.getD i false = false → ∀ b, b < T.cap → fillOf r.1 b = T.bs

/-- A lane that skipped `_capacity` buckets saw every bucket full. -/
theorem FullBelow.all {x : α} {j : Nat} (h : FullBelow H T F x j) (hsh : Shape T) (hj : T.cap ≤ j) {b : Nat}
    (hb : b < T.cap) : F b = T.bs := by
  obtain ⟨l, hl, rfl⟩ := hsh.path_surj H x hb
  exact h l (by omega)

end HashTable
