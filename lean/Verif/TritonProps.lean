import Verif.HTReserve

/-!
# Triton reservation kernel: correctness under every schedule (C28)
-/

namespace HashTable

open Jax SortGroup Dedupe

variable {α : Type u} [DecidableEq α] {H : Hasher α} {T : Table α}

/-! ## Bit lemmas (exhaustive over the at most 33 fill levels of a bucket) -/

theorem free_zero {bs g : Nat} (hbs : bs ≤ 32) (hg : g ≤ bs) :
    ((2 ^ g - 1) ^^^ 0xFFFFFFFF) &&& fullMask bs = 0 ↔ g = bs := by
  have : ∀ bs : Fin 33, ∀ g : Fin 33, g.1 ≤ bs.1 →
      (((2 ^ g.1 - 1) ^^^ 0xFFFFFFFF) &&& fullMask bs.1 = 0 ↔ g.1 = bs.1) := by decide +kernel
  exact this ⟨bs, by omega⟩ ⟨g, by omega⟩ hg

theorem lsb_eq {bs g : Nat} (hbs : bs ≤ 32) (hg : g < bs) :
    (((2 ^ g - 1) ^^^ 0xFFFFFFFF) &&& fullMask bs) &&&
      ((2 ^ 32 - (((2 ^ g - 1) ^^^ 0xFFFFFFFF) &&& fullMask bs)) % 2 ^ 32) = 2 ^ g := by
  have : ∀ bs : Fin 33, ∀ g : Fin 33, g.1 < bs.1 →
      (((2 ^ g.1 - 1) ^^^ 0xFFFFFFFF) &&& fullMask bs.1) &&&
      ((2 ^ 32 - (((2 ^ g.1 - 1) ^^^ 0xFFFFFFFF) &&& fullMask bs.1)) % 2 ^ 32) = 2 ^ g.1 := by decide +kernel
  exact this ⟨bs, by omega⟩ ⟨g, by omega⟩ hg

theorem or_bit {f g : Nat} (hf : f ≤ 32) (hg : g ≤ f) (hg' : g < 32) :
    ((2 ^ f - 1) &&& 2 ^ g = 0 ↔ f = g) ∧ (2 ^ f - 1) ||| 2 ^ g = 2 ^ (max f (g + 1)) - 1 := by
  have : ∀ f : Fin 33, ∀ g : Fin 32, g.1 ≤ f.1 →
      ((2 ^ f.1 - 1) &&& 2 ^ g.1 = 0 ↔ f.1 = g.1) ∧ (2 ^ f.1 - 1) ||| 2 ^ g.1 = 2 ^ (max f.1 (g.1 + 1)) - 1 := by
    decide +kernel
  exact this ⟨f, by omega⟩ ⟨g, by omega⟩ hg

theorem popcount_eq {bs g : Nat} (hbs : bs ≤ 32) (hg : g ≤ bs) : popcount32 ((2 ^ g - 1) &&& fullMask bs) = g := by
  have : ∀ bs : Fin 33, ∀ g : Fin 33, g.1 ≤ bs.1 → popcount32 ((2 ^ g.1 - 1) &&& fullMask bs.1) = g.1 := by decide +kernel
  exact this ⟨bs, by omega⟩ ⟨g, by omega⟩ hg

/-! ## Termination: every program ends within `tFuel` of its own steps -/

/-- Bound on the remaining steps of a program. -/
def laneMu (T : Table α) (mpb : Nat) : TLane → Nat
  | .done _ _ _ => 0
  | .head p _ => (mpb - p) * (T.bs + 3) + 1
  | .inner p _ a _ => (mpb - p - 1) * (T.bs + 3) + 2 + (T.bs - a)

/-- Remaining steps of program `i`. -/
def muAt (T : Table α) (mpb : Nat) (s : TState) (i : Nat) : Nat := ((s.lanes[i]?).map (laneMu T mpb)).getD 0

theorem tStep_cases (steps : List Nat) (mpb : Nat) (s : TState) (i c : Nat) :
    (tStep T steps mpb s (i, c) = s ∧ muAt T mpb s i = 0) ∨
    ∃ l, (tStep T steps mpb s (i, c)).lanes = s.lanes.set i l ∧ i < s.lanes.length ∧ laneMu T mpb l < muAt T mpb s i := by
  unfold tStep muAt
  simp only
  cases hl : s.lanes[i]? with
  | none => left; simp
  | some l =>
    have hlt := (List.getElem?_eq_some_iff.1 hl).1
    cases l with
    | done b sl ins => left; simp [laneMu]
    | head p b =>
      right
      simp only
      split
      · refine ⟨_, rfl, hlt, ?_⟩
        simp only [laneMu, Option.map_some, Option.getD_some]
        have e : (mpb - p) * (T.bs + 3) = (mpb - p - 1) * (T.bs + 3) + (T.bs + 3) := by
          have : mpb - p = (mpb - p - 1) + 1 := by omega
          conv => lhs; rw [this, Nat.add_mul, Nat.one_mul]
        omega
      · refine ⟨_, rfl, hlt, ?_⟩
        simp [laneMu]
    | inner p b a v =>
      right
      simp only
      split
      · split
        · refine ⟨_, rfl, hlt, ?_⟩
          split <;> simp only [laneMu, Option.map_some, Option.getD_some] <;> omega
        · refine ⟨_, rfl, hlt, ?_⟩
          simp only [laneMu, Option.map_some, Option.getD_some]; omega
      · refine ⟨_, rfl, hlt, ?_⟩
        simp only [laneMu, Option.map_some, Option.getD_some]
        have : mpb - (p + 1) = mpb - p - 1 := by omega
        rw [this]; omega

theorem tStep_length (steps : List Nat) (mpb : Nat) (s : TState) (ic : Nat × Nat) :
    (tStep T steps mpb s ic).lanes.length = s.lanes.length := by
  rcases tStep_cases (T := T) steps mpb s ic.1 ic.2 with ⟨h, _⟩ | ⟨l, h, _⟩
  · rw [h]
  · rw [h, List.length_set]

theorem tRun_length (steps : List Nat) (mpb : Nat) (s : TState) (sched : List (Nat × Nat)) :
    (tRun T steps mpb s sched).lanes.length = s.lanes.length := by
  induction sched generalizing s with
  | nil => rfl
  | cons ic sched ih => show (tRun T steps mpb _ sched).lanes.length = _; rw [ih, tStep_length]

theorem tStep_mu (steps : List Nat) (mpb : Nat) (s : TState) (i c k : Nat) :
    muAt T mpb (tStep T steps mpb s (i, c)) k ≤ muAt T mpb s k ∧
    (muAt T mpb (tStep T steps mpb s (i, c)) i ≤ muAt T mpb s i - 1) := by
  rcases tStep_cases (T := T) steps mpb s i c with ⟨h, h0⟩ | ⟨l, h, hlt, hmu⟩
  · rw [h]; omega
  · have hi : muAt T mpb (tStep T steps mpb s (i, c)) i = laneMu T mpb l := by
      unfold muAt; rw [h, List.getElem?_set_self hlt]; rfl
    refine ⟨?_, by omega⟩
    by_cases e : i = k
    · subst e; omega
    · unfold muAt; rw [h, List.getElem?_set_ne e]; exact Nat.le_refl _

theorem tRun_mu_le (steps : List Nat) (mpb : Nat) (s : TState) (sched : List (Nat × Nat)) (k : Nat) :
    muAt T mpb (tRun T steps mpb s sched) k ≤ muAt T mpb s k - (sched.countP fun ic => ic.1 == k) := by
  induction sched generalizing s with
  | nil => simp [tRun]
  | cons ic sched ih =>
    show muAt T mpb (tRun T steps mpb (tStep T steps mpb s ic) sched) k ≤ _
    have h1 := ih (tStep T steps mpb s ic)
    have h2 := tStep_mu (T := T) steps mpb s ic.1 ic.2 k
    rw [List.countP_cons]
    split
    · rename_i e
      have e' : ic.1 = k := by simpa using e
      have h3 := (tStep_mu (T := T) steps mpb s ic.1 ic.2 k).2
      rw [e'] at h3
      have : tStep T steps mpb s ic = tStep T steps mpb s (k, ic.2) := by rw [← e']
      rw [← this] at h3
      omega
    · have h2' : muAt T mpb (tStep T steps mpb s ic) k ≤ muAt T mpb s k := h2.1
      omega

theorem muAt_zero {mpb : Nat} {s : TState} {i : Nat} (hi : i < s.lanes.length) (h : muAt T mpb s i = 0) : s.isDone i := by
  unfold muAt at h
  rw [List.getElem?_eq_getElem hi] at h
  unfold TState.isDone
  rw [List.getElem?_eq_getElem hi]
  cases hc : s.lanes[i] with
  | done b sl ins => exact ⟨b, sl, ins, rfl⟩
  | head p b => rw [hc] at h; simp [laneMu] at h
  | inner p b a v => rw [hc] at h; simp [laneMu] at h

theorem tStep_done (steps : List Nat) (mpb : Nat) {s : TState} {i c : Nat} (h : s.isDone i) :
    tStep T steps mpb s (i, c) = s := by
  obtain ⟨b, sl, ins, hl⟩ := h
  unfold tStep; simp only [hl]

theorem tRun_done (steps : List Nat) (mpb : Nat) {s : TState} (h : ∀ i, i < s.lanes.length → s.isDone i)
    (sched : List (Nat × Nat)) : tRun T steps mpb s sched = s := by
  induction sched with
  | nil => rfl
  | cons ic sched ih =>
    show tRun T steps mpb (tStep T steps mpb s ic) sched = s
    have : tStep T steps mpb s ic = s := by
      by_cases hlt : ic.1 < s.lanes.length
      · exact tStep_done (T := T) steps mpb (i := ic.1) (c := ic.2) (h ic.1 hlt)
      · unfold tStep; rw [List.getElem?_eq_none (by omega)]
    rw [this]; exact ih

theorem finishSched_count (T : Table α) (mpb n i : Nat) (h : i < n) :
    (finishSched T mpb n).countP (fun ic => ic.1 == i) = tFuel T mpb := by
  unfold finishSched
  induction n with
  | zero => omega
  | succ n ih =>
    rw [List.range_succ, List.flatMap_append, List.countP_append]
    have hrep : ∀ k m, (List.replicate m (k, 0)).countP (fun ic : Nat × Nat => ic.1 == i) = if k = i then m else 0 := by
      intro k m
      rw [List.countP_replicate]
      simp
    simp only [List.flatMap_cons, List.flatMap_nil, List.append_nil, hrep]
    by_cases e : n = i
    · subst e
      rw [if_pos rfl]
      have : ((List.range n).flatMap fun i => List.replicate (tFuel T mpb) (i, 0)).countP (fun ic => ic.1 == n) = 0 := by
        rw [List.countP_eq_zero]
        intro a ha
        simp only [List.mem_flatMap, List.mem_range, List.mem_replicate] at ha
        obtain ⟨j, hj, _, rfl⟩ := ha
        simp; omega
      omega
    · rw [if_neg e, ih (by omega)]; rfl

theorem tInit_mu (starts : List Nat) (active : List Bool) (mpb i : Nat) :
    muAt T mpb (tInit T starts active) i ≤ tFuel T mpb := by
  unfold muAt tInit
  simp only [tab_getElem?]
  split
  · simp only [Option.map_some, Option.getD_some]
    split
    · simp only [laneMu, tFuel, Nat.add_mul, Nat.sub_zero]; omega
    · simp [laneMu]
  · simp

/-- Whatever the schedule does first, every program ends. -/
theorem triton_all_done (steps starts : List Nat) (active : List Bool) (mpb : Nat) (sched : List (Nat × Nat)) (i : Nat)
    (hi : i < active.length) :
    (tRun T steps mpb (tRun T steps mpb (tInit T starts active) sched) (finishSched T mpb active.length)).isDone i := by
  apply muAt_zero (T := T) (mpb := mpb)
  · rw [tRun_length, tRun_length]; simpa [tInit] using hi
  · have h1 := tRun_mu_le (T := T) steps mpb (tRun T steps mpb (tInit T starts active) sched)
      (finishSched T mpb active.length) i
    have h2 := tRun_mu_le (T := T) steps mpb (tInit T starts active) sched i
    have h3 := tInit_mu (T := T) starts active mpb i
    rw [finishSched_count T mpb _ i hi] at h1
    omega

/-! ## Invariant -/

/-- What a running (or unsuccessful) program knows. -/
def LaneOk (H : Hasher α) (T : Table α) (mpb : Nat) (F : Nat → Nat) (x : α) : TLane → Prop
  | .head p b => ∃ j, p ≤ j ∧ path H T x j = b ∧ FullBelow H T F x j
  | .inner p b a v => ∃ j, p ≤ j ∧ path H T x j = b ∧ FullBelow H T F x j ∧ ∃ g, a ≤ g ∧ g ≤ F b ∧ v = 2 ^ g - 1
  | .done _ _ true => True
  | .done _ _ false => ∃ j, mpb ≤ j ∧ FullBelow H T F x j

/-- `inserted` and position of a program. -/
def tOk (s : TState) (i : Nat) : Bool := ((s.lanes[i]?).map fun l : TLane => l.out.2).getD false

def tPos (s : TState) (i : Nat) : Pos := ((s.lanes[i]?).map fun l : TLane => l.out.1).getD default

/-- Invariant of the kernel; `F` are the fill levels. -/
structure TInv (H : Hasher α) (T : Table α) (xs : List α) (upd : List Bool) (mpb : Nat) (F : Nat → Nat) (s : TState) :
    Prop where
  cur : ∀ b, b < T.cap → s.cur b = 2 ^ F b - 1
  hist : ∀ b, b < T.cap → ∀ v ∈ s.hist b, ∃ g, g ≤ F b ∧ v = 2 ^ g - 1
  len : s.lanes.length = upd.length
  res : RInv H T xs upd F (tOk s) (tPos s)
  lane : ∀ i x l, upd.getD i false = true → xs[i]? = some x → s.lanes[i]? = some l → LaneOk H T mpb F x l
  idle : ∀ i l, upd.getD i false = false → s.lanes[i]? = some l → ∃ b, l = .done b 0 false

variable {xs : List α} {upd : List Bool} {mpb : Nat} {F : Nat → Nat} {s : TState}

theorem LaneOk.mono {F' : Nat → Nat} {x : α} {l : TLane} (h : LaneOk H T mpb F x l) (hsh : Shape T)
    (hm : ∀ b, b < T.cap → F b ≤ F' b ∧ F' b ≤ T.bs) : LaneOk H T mpb F' x l := by
  cases l with
  | head p b => obtain ⟨j, h1, h2, h3⟩ := h; exact ⟨j, h1, h2, h3.mono hsh hm⟩
  | inner p b a v =>
    obtain ⟨j, h1, h2, h3, g, h4, h5, h6⟩ := h
    refine ⟨j, h1, h2, h3.mono hsh hm, g, h4, ?_, h6⟩
    have := hm b (by rw [← h2]; exact hsh.path_lt' H x j)
    omega
  | done b sl ins =>
    cases ins with
    | true => trivial
    | false => obtain ⟨j, h1, h2⟩ := h; exact ⟨j, h1, h2.mono hsh hm⟩

theorem tOk_set {hist : Nat → List Nat} {i : Nat} {l : TLane} (hi : i < s.lanes.length) (k : Nat) :
    tOk { hist := hist, lanes := s.lanes.set i l } k = if k = i then l.out.2 else tOk s k := by
  unfold tOk
  split
  · rename_i e; subst e; simp only [List.getElem?_set_self hi]; rfl
  · rename_i e; simp only [List.getElem?_set_ne (Ne.symm e)]

theorem tPos_set {hist : Nat → List Nat} {i : Nat} {l : TLane} (hi : i < s.lanes.length) (k : Nat) :
    tPos { hist := hist, lanes := s.lanes.set i l } k = if k = i then l.out.1 else tPos s k := by
  unfold tPos
  split
  · rename_i e; subst e; simp only [List.getElem?_set_self hi]; rfl
  · rename_i e; simp only [List.getElem?_set_ne (Ne.symm e)]

/-- A step that changes only the local state of program `i`, which has not reserved anything. -/
theorem TInv.local (h : TInv H T xs upd mpb F s) {i : Nat} {l l' : TLane} (hl : s.lanes[i]? = some l)
    (hout : l.out.2 = false) (hout' : l'.out.2 = false) (hu : upd.getD i false = true)
    (hok : ∀ x, xs[i]? = some x → LaneOk H T mpb F x l') :
    TInv H T xs upd mpb F { s with lanes := s.lanes.set i l' } := by
  have hlt := (List.getElem?_eq_some_iff.1 hl).1
  have hoki : tOk s i = false := by unfold tOk; rw [hl]; simpa using hout
  refine ⟨h.cur, h.hist, by simpa using h.len, ?_, ?_, ?_⟩
  · apply h.res.congr
    · intro k; rw [tOk_set hlt]; split
      · rename_i e; subst e; rw [hoki, hout']
      · rfl
    · intro k hk
      rw [tPos_set hlt, if_neg]
      rintro rfl; rw [hoki] at hk; cases hk
  · intro k x m hku hx hm
    by_cases e : i = k
    · subst e
      simp only [List.getElem?_set_self hlt, Option.some.injEq] at hm
      subst hm; exact hok x hx
    · simp only [List.getElem?_set_ne e] at hm
      exact h.lane k x m hku hx hm
  · intro k m hku hm
    by_cases e : i = k
    · subst e; rw [hu] at hku; cases hku
    · simp only [List.getElem?_set_ne e] at hm
      exact h.idle k m hku hm

theorem pushHist_self (h : Nat → List Nat) (b v : Nat) : pushHist h b v b = v :: h b := by simp [pushHist]

theorem pushHist_ne (h : Nat → List Nat) {b b' : Nat} (v : Nat) (e : b' ≠ b) : pushHist h b v b' = h b' := by
  simp [pushHist, e]

/-- Every step preserves the invariant (for possibly higher fill levels). -/
theorem tStep_inv (hi : Inv H T) (hbs : T.bs ≤ 32) (hlen : xs.length = upd.length) (h : TInv H T xs upd mpb F s)
    (ic : Nat × Nat) : ∃ F', TInv H T xs upd mpb F' (tStep T (xs.map (step H T)) mpb s ic) ∧ ∀ b, F b ≤ F' b := by
  have hsh := hi.toShape
  obtain ⟨i, c⟩ := ic
  unfold tStep
  simp only
  cases hl : s.lanes[i]? with
  | none => exact ⟨F, h, fun b => Nat.le_refl _⟩
  | some l =>
    have hlt := (List.getElem?_eq_some_iff.1 hl).1
    obtain ⟨x, hx⟩ : ∃ x, xs[i]? = some x := ⟨_, List.getElem?_eq_getElem (by rw [hlen, ← h.len]; exact hlt)⟩
    cases l with
    | done b sl ins => exact ⟨F, h, fun b => Nat.le_refl _⟩
    | head p b =>
      have hu : upd.getD i false = true := by
        cases hc : upd.getD i false with
        | true => rfl
        | false => obtain ⟨_, e⟩ := h.idle i _ hc hl; cases e
      obtain ⟨j, h1, h2, h3⟩ := h.lane i x _ hu hx hl
      have hb : b < T.cap := by rw [← h2]; exact hsh.path_lt' H x j
      simp only
      split
      · refine ⟨F, h.local hl rfl rfl hu ?_, fun b => Nat.le_refl _⟩
        intro y hy
        rw [hx] at hy; cases hy
        refine ⟨j, h1, h2, h3, ?_⟩
        have hmem : (s.hist b).getD c (s.cur b) ∈ s.hist b ∨ (s.hist b).getD c (s.cur b) = s.cur b := by
          rw [List.getD_eq_getElem?_getD]
          cases hc : (s.hist b)[c]? with
          | none => right; rfl
          | some v => left; exact List.mem_of_getElem? hc
        rcases hmem with hm | hm
        · obtain ⟨g, hg1, hg2⟩ := h.hist b hb _ hm
          exact ⟨g, Nat.zero_le _, hg1, hg2⟩
        · rw [hm]; exact ⟨F b, Nat.zero_le _, Nat.le_refl _, h.cur b hb⟩
      · refine ⟨F, h.local hl rfl rfl hu ?_, fun b => Nat.le_refl _⟩
        intro y hy
        rw [hx] at hy; cases hy
        exact ⟨j, by omega, h3⟩
    | inner p b a v =>
      have hu : upd.getD i false = true := by
        cases hc : upd.getD i false with
        | true => rfl
        | false => obtain ⟨_, e⟩ := h.idle i _ hc hl; cases e
      obtain ⟨j, h1, h2, h3, g, h4, h5, rfl⟩ := h.lane i x _ hu hx hl
      have hb : b < T.cap := by rw [← h2]; exact hsh.path_lt' H x j
      have hFb := (h.res.lo b hb).2
      simp only
      split
      · rename_i ha
        by_cases hfree : g = T.bs
        · -- the view is full
          have e := (free_zero hbs (Nat.le_trans h5 hFb)).2 hfree
          rw [if_neg (by simpa using e)]
          refine ⟨F, h.local hl rfl rfl hu ?_, fun b => Nat.le_refl _⟩
          intro y hy
          rw [hx] at hy; cases hy
          exact ⟨j, h1, h2, h3, g, by omega, h5, rfl⟩
        · have hne : ¬ ((2 ^ g - 1) ^^^ 0xFFFFFFFF) &&& fullMask T.bs = 0 :=
            fun e => hfree ((free_zero hbs (Nat.le_trans h5 hFb)).1 e)
          rw [if_pos hne, lsb_eq hbs (by omega), h.cur b hb]
          obtain ⟨hb1, hb2⟩ := or_bit (f := F b) (g := g) (by omega) h5 (by omega)
          rw [hb2, Nat.log2_two_pow]
          by_cases hcl : F b = g
          · -- claimed
            rw [if_pos (hb1.2 hcl)]
            have hmax : max (F b) (g + 1) = F b + 1 := by omega
            rw [hmax]
            have hoki : tOk s i = false := by unfold tOk; rw [hl]; rfl
            have hm : ∀ b', b' < T.cap → F b' ≤ bump F b b' ∧ bump F b b' ≤ T.bs := by
              intro b' hb'
              refine ⟨bump_ge b b', ?_⟩
              unfold bump
              split
              · omega
              · exact (h.res.lo b' hb').2
            refine ⟨bump F b, ⟨?_, ?_, by simpa using h.len, ?_, ?_, ?_⟩, bump_ge b⟩
            · intro b' hb'
              unfold TState.cur
              by_cases e : b' = b
              · subst e; simp only [pushHist_self, bump_self, List.headD_cons]
              · simp only [pushHist_ne _ _ e]
                rw [show bump F b b' = F b' by simp [bump, e]]
                exact h.cur b' hb'
            · intro b' hb' w hw
              by_cases e : b' = b
              · subst e
                simp only [pushHist_self, List.mem_cons] at hw
                rw [bump_self]
                rcases hw with rfl | hw
                · exact ⟨_, Nat.le_refl _, rfl⟩
                · obtain ⟨g', hg1, hg2⟩ := h.hist b' hb' w hw
                  exact ⟨g', by omega, hg2⟩
              · simp only [pushHist_ne _ _ e] at hw
                rw [show bump F b b' = F b' by simp [bump, e]]
                exact h.hist b' hb' w hw
            · apply h.res.claim hsh hu hoki hb (by omega)
              · intro y hy
                rw [hx] at hy; cases hy
                exact ⟨j, h2, h3⟩
              · intro k
                rw [tOk_set hlt]
                split
                · rename_i e; subst e; simp [TLane.out]
                · rename_i e; simp [e]
              · rw [tPos_set hlt, if_pos rfl, hcl]; rfl
              · intro k hk
                rw [tPos_set hlt, if_neg]
                rintro rfl; rw [hoki] at hk; cases hk
            · intro k y m hku hy hm'
              by_cases e : i = k
              · subst e
                simp only [List.getElem?_set_self hlt, Option.some.injEq] at hm'
                subst hm'; trivial
              · simp only [List.getElem?_set_ne e] at hm'
                exact (h.lane k y m hku hy hm').mono hsh hm
            · intro k m hku hm'
              by_cases e : i = k
              · subst e; rw [hu] at hku; cases hku
              · simp only [List.getElem?_set_ne e] at hm'
                exact h.idle k m hku hm'
          · -- somebody else was faster
            rw [if_neg (fun e => hcl (hb1.1 e))]
            have hmax : max (F b) (g + 1) = F b := by omega
            rw [hmax]
            have hloc : TInv H T xs upd mpb F { s with lanes := s.lanes.set i (.inner p b (a + 1) (2 ^ F b - 1)) } := by
              refine h.local hl rfl rfl hu ?_
              intro y hy
              rw [hx] at hy; cases hy
              exact ⟨j, h1, h2, h3, F b, by omega, Nat.le_refl _, rfl⟩
            refine ⟨F, ⟨?_, ?_, hloc.len, hloc.res, hloc.lane, hloc.idle⟩, fun b => Nat.le_refl _⟩
            · intro b' hb'
              unfold TState.cur
              by_cases e : b' = b
              · subst e; simp only [pushHist_self, List.headD_cons]
              · simp only [pushHist_ne _ _ e]; exact h.cur b' hb'
            · intro b' hb' w hw
              by_cases e : b' = b
              · subst e
                simp only [pushHist_self, List.mem_cons] at hw
                rcases hw with rfl | hw
                · exact ⟨_, Nat.le_refl _, rfl⟩
                · exact h.hist b' hb' w hw
              · simp only [pushHist_ne _ _ e] at hw
                exact h.hist b' hb' w hw
      · -- bucket exhausted
        rename_i ha
        refine ⟨F, h.local hl rfl rfl hu ?_, fun b => Nat.le_refl _⟩
        intro y hy
        rw [hx] at hy; cases hy
        have hfull : F b = T.bs := by omega
        refine ⟨j + 1, by omega, ?_, ?_⟩
        · have : (xs.map (step H T)).getD i 0 = step H T x := by
            rw [List.getD_eq_getElem?_getD, List.getElem?_map, hx]; rfl
          rw [this, ← h2]; rfl
        · intro l hl'
          by_cases e : l = j
          · subst e; rw [h2]; exact hfull
          · exact h3 l (by omega)

theorem tRun_inv (hi : Inv H T) (hbs : T.bs ≤ 32) (hlen : xs.length = upd.length) (h : TInv H T xs upd mpb F s)
    (sched : List (Nat × Nat)) :
    ∃ F', TInv H T xs upd mpb F' (tRun T (xs.map (step H T)) mpb s sched) ∧ ∀ b, F b ≤ F' b := by
  induction sched generalizing s F with
  | nil => exact ⟨F, h, fun b => Nat.le_refl _⟩
  | cons ic sched ih =>
    obtain ⟨F1, h1, hm1⟩ := tStep_inv hi hbs hlen h ic
    obtain ⟨F2, h2, hm2⟩ := ih h1
    exact ⟨F2, h2, fun b => Nat.le_trans (hm1 b) (hm2 b)⟩

theorem tInit_inv (hi : Inv H T) (hbs : T.bs ≤ 32) {pos0 : List Pos} (hs : StartOk H T xs upd pos0) :
    TInv H T xs upd mpb (fillOf T) (tInit T (pos0.map (·.bucket)) upd) := by
  obtain ⟨hp, hx, hst⟩ := hs
  have hok : ∀ i, tOk (tInit T (pos0.map (·.bucket)) upd) i = false := by
    intro i
    unfold tOk tInit
    simp only [tab_getElem?]
    split
    · simp only [Option.map_some, Option.getD_some]; split <;> rfl
    · rfl
  refine ⟨?_, ?_, by simp [tInit], ?_, ?_, ?_⟩
  · intro b hb; exact hi.occ_ok hbs b hb
  · intro b hb v hv
    simp only [tInit, List.mem_singleton] at hv
    exact ⟨fillOf T b, Nat.le_refl _, by rw [hv]; exact hi.occ_ok hbs b hb⟩
  · refine (RInv.init (xs := xs) (upd := upd) (pos := tPos (tInit T (pos0.map (·.bucket)) upd)) hi).congr ?_ ?_
    · intro i; exact hok i
    · intro i h; cases h
  · intro i x l hu hxi hl
    obtain ⟨j, hf, hpos⟩ := hst i x hu hxi
    simp only [tInit, tab_getElem?] at hl
    split at hl
    · rename_i hlt
      simp only [hu, if_true, Option.some.injEq] at hl
      subst hl
      refine ⟨j, Nat.zero_le _, ?_, hf⟩
      rw [List.getD_eq_getElem?_getD] at hpos
      rw [List.getD_eq_getElem?_getD, List.getElem?_map]
      have hlt' : i < pos0.length := by rw [hp]; exact hlt
      rw [List.getElem?_eq_getElem hlt'] at hpos ⊢
      simp only [Option.getD_some] at hpos
      rw [hpos]; rfl
    · cases hl
  · intro i l hu hl
    simp only [tInit, tab_getElem?] at hl
    split at hl
    · rw [hu] at hl
      simp only [Bool.false_eq_true, if_false, Option.some.injEq] at hl
      exact ⟨_, hl.symm⟩
    · cases hl

/-- The outcome of the kernel: an invariant state in which every program has ended. -/
theorem triton_final (hi : Inv H T) (hbs : T.bs ≤ 32) {pos0 : List Pos} (hs : StartOk H T xs upd pos0) (m : Nat)
    (sched : List (Nat × Nat)) :
    ∃ F s, TInv H T xs upd m F s ∧ (∀ i, i < upd.length → s.isDone i) ∧
      s = tRun T (xs.map (step H T)) m (tRun T (xs.map (step H T)) m (tInit T (pos0.map (·.bucket)) upd) sched)
        (finishSched T m upd.length) := by
  obtain ⟨F1, h1, _⟩ := tRun_inv hi hbs hs.2.1 (tInit_inv (mpb := m) hi hbs hs) sched
  obtain ⟨F2, h2, _⟩ := tRun_inv hi hbs hs.2.1 h1 (finishSched T m upd.length)
  exact ⟨F2, _, h2, fun i hlt => triton_all_done (T := T) _ _ upd m sched i hlt, rfl⟩

/-- The result of the kernel satisfies the reservation invariant. -/
theorem triton_reserved_full (hi : Inv H T) (hbs : T.bs ≤ 32) {pos0 : List Pos} (hs : StartOk H T xs upd pos0)
    (mpb : Nat) (sched : List (Nat × Nat)) :
    ∃ F, RInv H T xs upd F
        (fun i => (tritonReserve T (xs.map (step H T)) (pos0.map (·.bucket)) upd mpb sched).ok.getD i false)
        (fun i => (tritonReserve T (xs.map (step H T)) (pos0.map (·.bucket)) upd mpb sched).pos.getD i default) ∧
      (∀ b, b < T.cap → (tritonReserve T (xs.map (step H T)) (pos0.map (·.bucket)) upd mpb sched).fill.getD b 0 = F b) ∧
      (∀ b, b < T.cap →
        (tritonReserve T (xs.map (step H T)) (pos0.map (·.bucket)) upd mpb sched).occ.getD b 0 = 2 ^ F b - 1) ∧
      (tritonReserve T (xs.map (step H T)) (pos0.map (·.bucket)) upd mpb sched).ok.length = xs.length ∧
      (tritonReserve T (xs.map (step H T)) (pos0.map (·.bucket)) upd mpb sched).fill.length = T.fill.length ∧
      (tritonReserve T (xs.map (step H T)) (pos0.map (·.bucket)) upd mpb sched).occ.length = T.occ.length ∧
      (T.cap ≤ mpb → ∀ i, upd.getD i false = true →
        (tritonReserve T (xs.map (step H T)) (pos0.map (·.bucket)) upd mpb sched).ok.getD i false = false →
        ∀ b, b < T.cap → F b = T.bs) := by
  have hsh := hi.toShape
  obtain ⟨F, s, hinv, hdone, hseq⟩ := triton_final hi hbs hs (min mpb T.cap) sched
  have hres : tritonReserve T (xs.map (step H T)) (pos0.map (·.bucket)) upd mpb sched =
      { fill := scatterSet T.fill (tab (s.lanes.map fun l : TLane => l.out.2).length fun i =>
          if (s.lanes.map fun l : TLane => l.out.2).getD i false then ((s.lanes.map fun l : TLane => l.out.1).getD i default).bucket
          else T.fill.length)
          ((s.lanes.map fun l : TLane => l.out.1).map fun p =>
            popcount32 (rd (tab T.occ.length fun b => s.cur b) p.bucket &&& fullMask T.bs))
        occ := tab T.occ.length fun b => s.cur b, pos := s.lanes.map fun l : TLane => l.out.1,
        ok := s.lanes.map fun l : TLane => l.out.2 } := by
    rw [hseq]; rfl
  rw [hres]
  have hgok : ∀ i, (s.lanes.map fun l : TLane => l.out.2).getD i false = tOk s i := by
    intro i; unfold tOk; rw [List.getD_eq_getElem?_getD, List.getElem?_map]
  have hgpos : ∀ i, (s.lanes.map fun l : TLane => l.out.1).getD i default = tPos s i := by
    intro i; unfold tPos; rw [List.getD_eq_getElem?_getD, List.getElem?_map]
  have hlen : s.lanes.length = upd.length := hinv.len
  have hfill : ∀ b, b < T.cap → (scatterSet T.fill (tab (s.lanes.map fun l : TLane => l.out.2).length fun i =>
          if (s.lanes.map fun l : TLane => l.out.2).getD i false then
            ((s.lanes.map fun l : TLane => l.out.1).getD i default).bucket
          else T.fill.length)
          ((s.lanes.map fun l : TLane => l.out.1).map fun p =>
            popcount32 (rd (tab T.occ.length fun b => s.cur b) p.bucket &&& fullMask T.bs))).getD b 0 = F b := by
    -- fill levels
    intro b hb
    rw [List.getD_eq_getElem?_getD]
    by_cases hex : ∃ i, tOk s i = true ∧ (tPos s i).bucket = b
    · -- the last write to `b`; all writes are equal
      have hval : ∀ i, tOk s i = true → (tPos s i).bucket = b →
          ((s.lanes.map fun l : TLane => l.out.1).map fun p =>
            popcount32 (rd (tab T.occ.length fun b => s.cur b) p.bucket &&& fullMask T.bs))[i]? = some (F b) := by
        intro i h1 h2
        have hlt : i < s.lanes.length := by
          unfold tOk at h1
          cases hc : s.lanes[i]? with
          | none => rw [hc] at h1; cases h1
          | some l => exact (List.getElem?_eq_some_iff.1 hc).1
        have hp := hgpos i
        rw [List.getD_eq_getElem?_getD] at hp
        rw [List.getElem?_map]
        have hlt' : i < (s.lanes.map fun l : TLane => l.out.1).length := by simpa using hlt
        rw [List.getElem?_eq_getElem hlt'] at hp ⊢
        simp only [Option.getD_some] at hp
        rw [hp]
        simp only [Option.map_some, Option.some.injEq]
        rw [h2]
        have : rd (tab T.occ.length fun b => s.cur b) b = 2 ^ F b - 1 := by
          unfold rd
          have hlo := hsh.len_occ
          rw [tab_length, show min b (T.occ.length - 1) = b by omega, tab_getD _ _ (by omega)]
          exact hinv.cur b hb
        rw [this, popcount_eq hbs (hinv.res.lo b hb).2]
      obtain ⟨i0, hi0⟩ := hex
      have gen : ∀ (idx vals : List Nat) (l : List Nat), (∀ (i : Nat) (k : Nat), idx[i]? = some b → vals[i]? = some k → k = F b) →
          idx.length = vals.length → b < l.length → (l[b]? = some (F b) ∨ b ∈ idx) →
          (scatterSet l idx vals)[b]? = some (F b) := by
        intro idx
        induction idx with
        | nil => intro vals l _ _ _ h; rcases h with h | h
                 · simpa [scatterSet] using h
                 · cases h
        | cons a idx ih =>
          intro vals l hv hle hbl hor
          cases vals with
          | nil => simp at hle
          | cons v vals =>
            show (scatterSet (l.set a v) idx vals)[b]? = some (F b)
            refine ih vals (l.set a v) (fun i k h1 h2 => hv (i + 1) k (by simpa using h1) (by simpa using h2))
              (by simpa using hle) (by simpa using hbl) ?_
            by_cases e : a = b
            · subst e
              left
              rw [List.getElem?_set_self hbl]
              rw [hv 0 v (by simp) (by simp)]
            · rcases hor with h | h
              · left; rw [List.getElem?_set_ne e]; exact h
              · right
                rcases List.mem_cons.1 h with h | h
                · exact absurd h.symm e
                · exact h
      rw [gen]
      · rfl
      · intro i k h1 h2
        rw [tab_getElem?] at h1
        split at h1
        · simp only [Option.some.injEq] at h1
          rw [hgok, hgpos] at h1
          split at h1
          · rename_i hlt hoki
            rw [hval i hoki h1] at h2
            cases h2; rfl
          · have := hsh.len_fill; omega
        · cases h1
      · simp
      · rw [hsh.len_fill]; omega
      · right
        rw [List.mem_iff_getElem?]
        refine ⟨i0, ?_⟩
        have hlt : i0 < s.lanes.length := by
          have h1 := hi0.1
          unfold tOk at h1
          cases hc : s.lanes[i0]? with
          | none => rw [hc] at h1; cases h1
          | some l => exact (List.getElem?_eq_some_iff.1 hc).1
        rw [tab_getElem?, if_pos (by simpa using hlt), hgok, hgpos, hi0.1, if_pos rfl, hi0.2]
    · -- bucket untouched
      rw [scatterSet_not_mem]
      · have : F b = fillOf T b := by
          apply Classical.byContradiction
          intro hne
          have hlo := (hinv.res.lo b hb).1
          obtain ⟨i, h1, h2⟩ := hinv.res.surj b (fillOf T b) hb (Nat.le_refl _) (by omega)
          exact hex ⟨i, h1, by rw [h2]⟩
        rw [this]
        unfold fillOf
        rw [List.getD_eq_getElem?_getD]
      · intro hm
        obtain ⟨i, hi'⟩ := List.mem_iff_getElem?.1 hm
        rw [tab_getElem?] at hi'
        split at hi'
        · simp only [Option.some.injEq] at hi'
          rw [hgok, hgpos] at hi'
          split at hi'
          · rename_i hoki
            exact hex ⟨i, hoki, hi'⟩
          · have := hsh.len_fill; omega
        · cases hi'
  refine ⟨F, hinv.res.congr hgok (fun i _ => hgpos i), hfill, ?_, by simp [hlen, hs.2.1], by simp, by simp, ?_⟩
  · intro b hb
    rw [tab_getD _ _ (by have := hsh.len_occ; omega)]
    exact hinv.cur b hb
  · intro hcap i hu hno b hb
    have hno' : tOk s i = false := by rw [← hgok]; exact hno
    have hlt : i < upd.length := getD_true_lt hu
    obtain ⟨b', sl, ins, hl⟩ := hdone i hlt
    obtain ⟨x, hx⟩ : ∃ x, xs[i]? = some x := ⟨_, List.getElem?_eq_getElem (by rw [hs.2.1]; exact hlt)⟩
    have hlane := hinv.lane i x _ hu hx hl
    have hins : ins = false := by unfold tOk at hno'; rw [hl] at hno'; exact hno'
    subst hins
    obtain ⟨j, hj, hf⟩ := hlane
    exact hf.all hsh (by omega) hb

theorem triton_reserved (hi : Inv H T) (hbs : T.bs ≤ 32) {pos0 : List Pos} (hs : StartOk H T xs upd pos0)
    (mpb : Nat) (sched : List (Nat × Nat)) :
    ∃ F, RInv H T xs upd F
        (fun i => (tritonReserve T (xs.map (step H T)) (pos0.map (·.bucket)) upd mpb sched).ok.getD i false)
        (fun i => (tritonReserve T (xs.map (step H T)) (pos0.map (·.bucket)) upd mpb sched).pos.getD i default) ∧
      (∀ b, b < T.cap → (tritonReserve T (xs.map (step H T)) (pos0.map (·.bucket)) upd mpb sched).fill.getD b 0 = F b) ∧
      (∀ b, b < T.cap →
        (tritonReserve T (xs.map (step H T)) (pos0.map (·.bucket)) upd mpb sched).occ.getD b 0 = 2 ^ F b - 1) := by
  obtain ⟨F, h1, h2, h3, _⟩ := triton_reserved_full hi hbs hs mpb sched
  exact ⟨F, h1, h2, h3⟩

theorem triton_spec (hi : Inv H T) (hbs : T.bs ≤ 32) {pos0 : List Pos} (hs : StartOk H T xs upd pos0)
    (mpb : Nat) (sched : List (Nat × Nat))
    (habs : ∀ i x, upd.getD i false = true → xs[i]? = some x → ∀ b s, b < T.cap → ¬ Has T x b s)
    (hdist : ∀ i k x, upd.getD i false = true → upd.getD k false = true → xs[i]? = some x → xs[k]? = some x → i = k) :
    PlaceSpec H T xs upd
      (applyReserved H T xs (tritonReserve T (xs.map (step H T)) (pos0.map (·.bucket)) upd mpb sched)) ∧
    (T.cap ≤ mpb → GivesUpFull T upd
      (applyReserved H T xs (tritonReserve T (xs.map (step H T)) (pos0.map (·.bucket)) upd mpb sched))) := by
  obtain ⟨F, h1, h2, h3, h4, h5, h6, h7⟩ := triton_reserved_full hi hbs hs mpb sched
  refine ⟨applyReserved_spec hi h1 h4 (fun _ => rfl) (fun _ _ => rfl) h5 h6 h2 h3 habs hdist, ?_⟩
  intro hcap i hu hno b hb
  rw [← h7 hcap i hu hno b hb]
  exact h2 b hb

end HashTable
