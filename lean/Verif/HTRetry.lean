import Verif.HTRoom

/-! # C22: what a call of `parallel_insert` achieves at least, and what repeating it achieves -/

namespace HashTable

open Jax SortGroup Dedupe

variable {α : Type u} [DecidableEq α] {H : Hasher α} {T : Table α}

/-- Taken slots stay taken during all rounds. -/
theorem occ_loop {xs : List α} {upd : List Bool} {pos : List Pos} (hi : Inv H T) (hp : PlaceInv H T xs upd pos) (hl : xs.length = upd.length) {b s : Nat}
    (ho : Occ T upd pos b s) (rounds : Nat) : Occ T upd (placeLoop T (xs.map (step H T)) upd rounds pos) b s := by
  induction rounds generalizing pos with
  | zero => exact ho
  | succ r ih =>
    simp only [placeLoop]
    split
    · exact ih (placeRound_inv hi hp hl) (occ_mono hi hp hl ho)
    · exact ho

variable {K : Type v} [KeyTop K]

theorem getD_true {l : List Bool} {i : Nat} : l[i]? = some true ↔ l.getD i false = true := by
  rw [List.getD_eq_getElem?_getD]
  cases h : l[i]? with
  | none => simp
  | some v => simp

theorem mem_newLanes {xs : List α} {u : List Bool} {l : Nat} :
    l ∈ newLanes H T xs u ↔ ∃ x, xs[l]? = some x ∧ u[l]? = some true ∧ (lookup H T x).2 = false := by
  unfold newLanes
  rw [List.mem_filter, List.mem_range]
  constructor
  · rintro ⟨h1, h2⟩
    have hx : xs[l]? = some xs[l] := List.getElem?_eq_getElem h1
    rw [hx] at h2
    simp only [Option.map_some, Option.getD_some, Bool.and_eq_true, Bool.not_eq_eq_eq_not, Bool.not_true] at h2
    exact ⟨_, hx, getD_true.2 h2.1, h2.2⟩
  · rintro ⟨x, hx, hu, hf⟩
    refine ⟨(List.getElem?_eq_some_iff.1 hx).1, ?_⟩
    rw [hx, getD_true.1 hu]
    simp [hf]

/-- **C22, progress.**  If the table has a free slot, the first non-full bucket on the probe path of every new item of the batch (the bucket `lookup` of the item
returns) receives an item of the batch in this call.  In particular some lane is reported inserted. -/
theorem parallel_insert_progress (hr : Reachable K H T) (mode : Mode) (xs : List α) (filled : List Bool) (key : Option (List K))
    (hnf : ∃ i, i < T.cap * T.bs ∧ ¬ Occupied T i) :
    let r := parallelInsert .xla mode H T xs filled key
    ∀ l ∈ newLanes H T xs r.unique, ∀ x : α, xs[l]? = some x →
      ∃ (l' : Nat) (y : α) (i : Nat), r.inserted[l']? = some true ∧ xs[l']? = some y ∧ Stored r.table y i ∧ i / T.bs = (lookup H T x).1 / T.bs := by
  intro r l hl x hx
  have hi := hr.inv
  have hsel := dedupe_sel mode H xs filled key
  have hext := parallelInsert_ext .xla hi hsel
  have hlen := updLanes_pi (H := H) (T := T) hi hsel
  have hm : l ∈ updLanes (piUpd H T xs filled (dedupe mode H.toEnc xs filled key)) := by rw [hlen]; exact hl
  obtain ⟨hlt, hu⟩ := mem_updLanes.1 hm
  have hll : xs.length = (piUpd H T xs filled (dedupe mode H.toEnc xs filled key)).length := by simp [piUpd]
  obtain ⟨b, hb, hf, hpos, hhome⟩ := piPos_home (H := H) (T := T) hi hsel hnf l x hu hx
  have hp := pi_placeInv (H := H) (T := T) hi hsel
  have hocc : Occ T (piUpd H T xs filled (dedupe mode H.toEnc xs filled key)) (piPos H T xs filled (dedupe mode H.toEnc xs filled key)) b (fillOf T b) :=
    ⟨hf, l, hlt, hu, hpos⟩
  have hocc' := occ_loop hi hp hll hocc T.maxProbes
  have hp' := placeLoop_inv hi hp hll T.maxProbes
  obtain ⟨k, hk, hw, hkp⟩ := occ_winner hi hp' hll hocc'
  have hok : (piOk H T .xla xs filled (dedupe mode H.toEnc xs filled key)).getD k false = true := (finalOk_iff hi hp' hll k).2 ⟨hk, hw⟩
  obtain ⟨y, hy⟩ : ∃ y, xs[k]? = some y := ⟨_, List.getElem?_eq_getElem (by omega)⟩
  have hn : piNew H T .xla xs filled (dedupe mode H.toEnc xs filled key) y _ _ := ⟨k, hok, hy, rfl⟩
  refine ⟨k, y, _, getD_true.2 hok, hy, (hext.stored hi y _).2 (Or.inr ⟨_, _, (hext.new_ok y _ _ hn).1, rfl, hn⟩), ?_⟩
  have hkp' : (piFin H T .xla xs filled (dedupe mode H.toEnc xs filled key)).getD k default = ⟨b, fillOf T b⟩ := hkp
  show (((piFin H T .xla xs filled (dedupe mode H.toEnc xs filled key)).getD k default).bucket * T.bs +
    ((piFin H T .xla xs filled (dedupe mode H.toEnc xs filled key)).getD k default).slot) / T.bs = _
  rw [hkp', hhome]
  exact (divmod_flat hf).1

/-- **C22, nothing more to do.**  If a call reports no lane as inserted, every item of the batch that was selected is stored already, or the table is full. -/
theorem parallel_insert_none_inserted (hr : Reachable K H T) (mode : Mode) (xs : List α) (filled : List Bool) (key : Option (List K))
    (h : ∀ l : Nat, (parallelInsert .xla mode H T xs filled key).inserted[l]? ≠ some true) :
    (∀ (l : Nat) (x : α), xs[l]? = some x → (parallelInsert .xla mode H T xs filled key).unique[l]? = some true → ∃ i, Stored T x i) ∨
    ∀ i, i < T.cap * T.bs → Occupied T i := by
  apply Classical.byContradiction
  intro hn
  rw [not_or] at hn
  obtain ⟨h1, h2⟩ := hn
  have hnf : ∃ i, i < T.cap * T.bs ∧ ¬ Occupied T i := by
    apply Classical.byContradiction
    intro hc
    exact h2 fun i hi => Classical.byContradiction fun ho => hc ⟨i, hi, ho⟩
  apply h1
  intro l x hx hu
  cases hf : (lookup H T x).2 with
  | true => exact (lookup_exact hr x).1.1 hf
  | false =>
    obtain ⟨l', y, i, hins, _⟩ := parallel_insert_progress hr mode xs filled key hnf l (mem_newLanes.2 ⟨x, hx, hu, hf⟩) x hx
    exact absurd hins (h l')

/-- The new items left after a call: those of the lanes not reported inserted. -/
theorem newLanes_after (hr : Reachable K H T) (be : Backend) (mode : Mode) (xs : List α) (filled : List Bool) (key : Option (List K)) :
    newLanes H (parallelInsert be mode H T xs filled key).table xs (parallelInsert be mode H T xs filled key).unique =
      (newLanes H T xs (parallelInsert be mode H T xs filled key).unique).filter
        fun l => !(parallelInsert be mode H T xs filled key).inserted.getD l false := by
  obtain ⟨u1, u2, _⟩ := parallel_insert_union hr be mode xs filled key
  have hr' : Reachable K H (parallelInsert be mode H T xs filled key).table := hr.run (.parallelInsert be mode xs filled key)
  have hsel := dedupe_sel mode H xs filled key
  generalize hg : parallelInsert be mode H T xs filled key = r at *
  have hru : r.unique = (dedupe mode H.toEnc xs filled key).1 := by rw [← hg]; rfl
  have e : ∀ l ∈ List.range xs.length, (r.unique.getD l false && (xs[l]?.map fun x => !(lookup H r.table x).2).getD false) =
      ((!r.inserted.getD l false) && (r.unique.getD l false && (xs[l]?.map fun x => !(lookup H T x).2).getD false)) := by
    intro l hl
    have hlt := List.mem_range.1 hl
    have hx : xs[l]? = some xs[l] := List.getElem?_eq_getElem hlt
    rw [hx]
    simp only [Option.map_some, Option.getD_some]
    cases hu : r.unique.getD l false with
    | false => simp
    | true =>
      simp only [Bool.true_and]
      have hiff : (lookup H r.table xs[l]).2 = true ↔ (lookup H T xs[l]).2 = true ∨ r.inserted.getD l false = true := by
        rw [(lookup_exact hr' xs[l]).1, u1, (lookup_exact hr xs[l]).1]
        constructor
        · rintro (h | ⟨l', h1, h2⟩)
          · exact Or.inl h
          · obtain ⟨_, h3, _⟩ := u2 l' h1
            have := hsel.distinct l l' xs[l] (by rw [← hru]; exact hu) (by rw [← hru]; exact getD_true.1 h3) hx h2
            subst this
            exact Or.inr (getD_true.1 h1)
        · rintro (h | h)
          · exact Or.inl h
          · exact Or.inr ⟨l, getD_true.2 h, hx⟩
      cases ha : (lookup H r.table xs[l]).2 <;> cases hb : (lookup H T xs[l]).2 <;> cases hc : r.inserted.getD l false <;> simp_all
  unfold newLanes
  rw [List.filter_congr e, List.filter_filter]

/-- Every inserted lane was new. -/
theorem inserted_count (hr : Reachable K H T) (be : Backend) (mode : Mode) (xs : List α) (filled : List Bool) (key : Option (List K)) :
    (parallelInsert be mode H T xs filled key).inserted.countP id =
      ((newLanes H T xs (parallelInsert be mode H T xs filled key).unique).filter
        fun l => (parallelInsert be mode H T xs filled key).inserted.getD l false).length := by
  obtain ⟨_, u2, _⟩ := parallel_insert_union hr be mode xs filled key
  have hsel := dedupe_sel mode H xs filled key
  have himp := fun l => piOk_imp (be := be) (i := l) hr.inv hsel
  have hlen : ∀ l : Nat, (parallelInsert be mode H T xs filled key).inserted[l]? = some true → ∃ x, xs[l]? = some x := fun l h => by
    obtain ⟨x, hx, _⟩ := himp l (getD_true.1 h)
    exact ⟨x, hx⟩
  clear himp
  generalize parallelInsert be mode H T xs filled key = r at *
  have hcount : ∀ m : List Bool, m.countP id = ((List.range m.length).filter fun l => m.getD l false).length := by
    intro m
    have : m = (List.range m.length).map fun l => m.getD l false := by
      apply List.ext_getElem?
      intro i
      rw [List.getElem?_map]
      by_cases h : i < m.length
      · rw [List.getElem?_range h, List.getElem?_eq_getElem h, Option.map_some, List.getD_eq_getElem?_getD, List.getElem?_eq_getElem h, Option.getD_some]
      · rw [List.getElem?_eq_none (by omega), List.getElem?_eq_none (by simpa using h)]
        rfl
    conv => lhs; rw [this, List.countP_map]
    rw [List.countP_eq_length_filter]
    rfl
  rw [hcount]
  have nd1 : ((List.range r.inserted.length).filter fun l => r.inserted.getD l false).Nodup := List.Pairwise.filter _ List.nodup_range
  have nd2 : ((newLanes H T xs r.unique).filter fun l => r.inserted.getD l false).Nodup :=
    List.Pairwise.filter _ (List.Pairwise.filter _ List.nodup_range)
  refine Nat.le_antisymm (nodup_subset_length nd1 ?_) (nodup_subset_length nd2 ?_)
  · intro l hl
    rw [List.mem_filter] at hl ⊢
    refine ⟨?_, hl.2⟩
    obtain ⟨_, h2, h3⟩ := u2 l (getD_true.2 hl.2)
    obtain ⟨x, hx⟩ := hlen l (getD_true.2 hl.2)
    refine mem_newLanes.2 ⟨x, hx, h2, ?_⟩
    cases hf : (lookup H T x).2 with
    | false => rfl
    | true => exact absurd ((lookup_exact hr x).1.1 hf) (h3 x hx)
  · intro l hl
    rw [List.mem_filter] at hl ⊢
    refine ⟨?_, hl.2⟩
    rw [List.mem_range]
    exact getD_true_lt hl.2

/-- **C22, repeating the call.**  If the table has room for the distinct new items of the batch, calling `parallel_insert` with the same arguments as many times
as there are new items stores all of them, whatever the hash function. -/
theorem parallel_insert_retry (hr : Reachable K H T) (mode : Mode) (xs : List α) (filled : List Bool) (key : Option (List K))
    (hroom : (newLanes H T xs (parallelInsert .xla mode H T xs filled key).unique).length + T.size ≤ T.cap * T.bs) (n : Nat)
    (hn : (newLanes H T xs (parallelInsert .xla mode H T xs filled key).unique).length ≤ n)
    (l : Nat) (x : α) (hx : xs[l]? = some x) (hu : (parallelInsert .xla mode H T xs filled key).unique[l]? = some true) :
    ∃ i, Stored (exec H T (List.replicate n (.parallelInsert .xla mode xs filled key))) x i := by
  induction n generalizing T with
  | zero =>
    have hnil := List.length_eq_zero_iff.1 (Nat.le_zero.1 hn)
    cases hf : (lookup H T x).2 with
    | true => exact (lookup_exact hr x).1.1 hf
    | false =>
      have : l ∈ newLanes H T xs (parallelInsert .xla mode H T xs filled key).unique := mem_newLanes.2 ⟨x, hx, hu, hf⟩
      rw [hnil] at this
      cases this
  | succ n ih =>
    have hafter := newLanes_after hr .xla mode xs filled key
    have hcount := inserted_count hr .xla mode xs filled key
    have hsize := run_size hr.inv (.parallelInsert .xla mode xs filled key)
    have hr' : Reachable K H (parallelInsert .xla mode H T xs filled key).table := hr.run (.parallelInsert .xla mode xs filled key)
    have hun : (parallelInsert .xla mode H (parallelInsert .xla mode H T xs filled key).table xs filled key).unique =
      (parallelInsert .xla mode H T xs filled key).unique := rfl
    have hcb : (parallelInsert .xla mode H T xs filled key).table.cap = T.cap ∧ (parallelInsert .xla mode H T xs filled key).table.bs = T.bs := by
      have := parallelInsert_ext .xla hr.inv (dedupe_sel mode H xs filled key)
      exact ⟨this.cap_eq, this.bs_eq⟩
    rw [List.replicate_succ]
    show ∃ i, Stored (exec H (parallelInsert .xla mode H T xs filled key).table _) x i
    have hsize' : (parallelInsert .xla mode H T xs filled key).table.size = T.size + (parallelInsert .xla mode H T xs filled key).inserted.countP id := hsize
    have hsplit : ((newLanes H T xs (parallelInsert .xla mode H T xs filled key).unique).filter
          fun l => (parallelInsert .xla mode H T xs filled key).inserted.getD l false).length +
        (newLanes H (parallelInsert .xla mode H T xs filled key).table xs (parallelInsert .xla mode H T xs filled key).unique).length =
        (newLanes H T xs (parallelInsert .xla mode H T xs filled key).unique).length := by
      rw [hafter]
      have := List.length_eq_countP_add_countP (fun l => (parallelInsert .xla mode H T xs filled key).inserted.getD l false)
        (l := newLanes H T xs (parallelInsert .xla mode H T xs filled key).unique)
      rw [List.countP_eq_length_filter, List.countP_eq_length_filter] at this
      rw [this]
      congr 1
      congr 1
      apply List.filter_congr
      intro a _
      cases (parallelInsert .xla mode H T xs filled key).inserted.getD a false <;> rfl
    refine ih hr' ?_ ?_ ?_
    · rw [hun, hcb.1, hcb.2]
      omega
    · rw [hun]
      by_cases hnil : newLanes H T xs (parallelInsert .xla mode H T xs filled key).unique = []
      · rw [hnil, List.length_nil] at hsplit; omega
      · obtain ⟨l0, hl0⟩ := List.exists_mem_of_ne_nil _ hnil
        have hnf : ∃ i, i < T.cap * T.bs ∧ ¬ Occupied T i := by
          have h1 := free_length hr.inv
          have h2 := List.length_pos_of_mem hl0
          obtain ⟨i, hi⟩ := List.exists_mem_of_ne_nil ((List.range (T.cap * T.bs)).filter fun i => !decide (Occupied T i)) (fun e => by
            rw [e, List.length_nil] at h1; omega)
          rw [List.mem_filter, List.mem_range] at hi
          exact ⟨i, hi.1, by simpa using hi.2⟩
        obtain ⟨x0, hx0, _⟩ := mem_newLanes.1 hl0
        obtain ⟨l', y, i, hins, _⟩ := parallel_insert_progress hr mode xs filled key hnf l0 hl0 x0 hx0
        have : 0 < (parallelInsert .xla mode H T xs filled key).inserted.countP id :=
          List.countP_pos_iff.2 ⟨true, List.mem_of_getElem? hins, rfl⟩
        omega
    · rw [hun]; exact hu

/-- The counterexample of `parallel_insert_room_false`: the second call stores the item that the first one left out. -/
example :
    let T := exec (K := Option Nat) roomHasher (build 0 4 1 2 none) [.insert 1, .insert 2, .insert 3, .insert 4, .insert 6]
    let op : Op Nat (Option Nat) := .parallelInsert .xla .safe [0, 8, 29] [true, true, true] none
    (lookup roomHasher (exec roomHasher T [op]) 29).2 = false ∧ (lookup roomHasher (exec roomHasher T [op, op]) 29).2 = true ∧
    (exec roomHasher T [op, op]).size = 8 := by
  decide +kernel

end HashTable
